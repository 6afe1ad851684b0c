import Mathlib.Algebra.Order.Ring.Rat
import Mathlib.Data.Rat.Defs
import Mathlib.Data.List.Sort
import Verif.BatchKd.StateLemmas
import Verif.BatchKd.EraseOneLemmas

set_option linter.unusedSectionVars false
set_option linter.unusedVariables false

/-!
Properties C22, C23, C25, C28 and C29: the batch kd-tree in binary-heap layout.
-/

namespace Verif.BatchKd

variable {α K : Type} {d : ℕ}

/-- The operations of a batch tree (specification of histories): insertion
(`include/batchKdtree/binary-heap-layout/bhlkdtree.h:224-264`), `bulk_erase<true>` and `bulk_erase<false>`
(`bhlkdtree.h:265-291`), and `erase<true>`, one point after the other
(`include/batchKdtree/shared/kdtree.h:588-598`). -/
inductive Op (α K : Type) (d : ℕ) where
  | insert (pts : List α)
  | erase (pts : List (Point K d))
  | eraseKeep (pts : List (Point K d))
  | eraseEach (pts : List (Point K d))

section
variable [Field K] [LinearOrder K]

/-- One operation. -/
def step (pos : α → Point K d) (c : Cfg α K d) (d0 : Fin d)
    (part : Fin d → K → List (Point K d) → List (Point K d)) (t : Tree α K d) :
    Op α K d → Except Err (Tree α K d)
  | .insert pts => insert pos c d0 t pts
  | .erase pts => bulkEraseRebuild pos c d0 part t pts
  | .eraseKeep pts => bulkErase pos part t pts
  | .eraseEach pts => erasePoints pos true t pts

/-- A history of operations. -/
def run (pos : α → Point K d) (c : Cfg α K d) (d0 : Fin d)
    (part : Fin d → K → List (Point K d) → List (Point K d)) (t : Tree α K d) :
    List (Op α K d) → Except Err (Tree α K d)
  | [] => .ok t
  | o :: ops => (step pos c d0 part t o).bind fun t' => run pos c d0 part t' ops

/-- Specification: what one operation does to the multiset of stored positions. -/
def specStep (pos : α → Point K d) (M : Multiset (Point K d)) : Op α K d → Multiset (Point K d)
  | .insert pts => M + (pts.map pos : List (Point K d))
  | .erase pts => M - (pts : List (Point K d))
  | .eraseKeep pts => M - (pts : List (Point K d))
  | .eraseEach pts => M - (pts : List (Point K d))

/-- Specification: the stored positions after a history. -/
def spec (pos : α → Point K d) (M : Multiset (Point K d)) (ops : List (Op α K d)) :
    Multiset (Point K d) :=
  ops.foldl (specStep pos) M

/-- No two positions share a coordinate in any dimension. -/
def DistinctPositions (M : Multiset (Point K d)) : Prop :=
  ∀ dim, (M.map fun p => p dim).Nodup

/-- Histories within the capacity, without equal coordinates, and without an insertion into a tree that
`bulk_erase<false>` or single erasures emptied (`clean` is false then). -/
def Allowed (pos : α → Point K d) (cap : ℕ) :
    Bool → Multiset (Point K d) → List (Op α K d) → Prop
  | _, _, [] => True
  | clean, M, .insert pts :: ops =>
    (M = 0 → clean = true) ∧ Multiset.card (specStep pos M (.insert pts)) ≤ cap ∧
      DistinctPositions (specStep pos M (.insert pts)) ∧
      Allowed pos cap clean (specStep pos M (.insert pts)) ops
  | _, M, .erase pts :: ops => Allowed pos cap true (specStep pos M (.erase pts)) ops
  | clean, M, .eraseKeep pts :: ops =>
    Allowed pos cap (clean && decide (M = 0 ∨ M - (pts : List (Point K d)) ≠ 0)) (M - (pts : List (Point K d)))
      ops
  | clean, M, .eraseEach pts :: ops =>
    Allowed pos cap (clean && decide (M = 0 ∨ M - (pts : List (Point K d)) ≠ 0)) (M - (pts : List (Point K d)))
      ops

/-- Reachable states: any points, any history within the capacity in which no insertion goes to a tree with
stale flags, as long as the operations return. -/
inductive Reach (pos : α → Point K d) (c : Cfg α K d) (d0 : Fin d)
    (part : Fin d → K → List (Point K d) → List (Point K d)) : Tree α K d → Prop
  | new (blank : α) (log2size : ℕ) : Reach pos c d0 part (emptyTree blank log2size)
  | insert {t t' : Tree α K d} (pts : List α) : Reach pos c d0 part t →
      (t.curSize = 0 → t.present = List.replicate t.maxSize true) →
      t.curSize + pts.length ≤ t.maxSize → insert pos c d0 t pts = .ok t' → Reach pos c d0 part t'
  | erase {t t' : Tree α K d} (pts : List (Point K d)) : Reach pos c d0 part t →
      bulkEraseRebuild pos c d0 part t pts = .ok t' → Reach pos c d0 part t'
  | eraseKeep {t t' : Tree α K d} (pts : List (Point K d)) : Reach pos c d0 part t →
      bulkErase pos part t pts = .ok t' → Reach pos c d0 part t'
  | eraseEach {t t' : Tree α K d} (pts : List (Point K d)) : Reach pos c d0 part t →
      erasePoints pos true t pts = .ok t' → Reach pos c d0 part t'

/-- Specification: slices and boxes of all nodes. -/
def BT.boxes : BT K d → List (ℕ × ℕ × Box K d)
  | .nil => []
  | .leaf _ s e _ b => [(s, e, b)]
  | .node _ s e _ _ b l r => (s, e, b) :: (l.boxes ++ r.boxes)

theorem Good.boxes {pos : α → Point K d} {items : List α} {present : List Bool} {t : BT K d}
    (h : Good pos items present t) :
    ∀ n ∈ t.boxes, ∀ x ∈ live items present n.1 n.2.1, n.2.2.Mem (pos x) := by
  induction t with
  | nil => exact absurd h (by simp [Good])
  | leaf idx s e cnt b =>
    intro n hn
    simp only [BT.boxes, List.mem_singleton] at hn
    subst hn
    exact h.2.2.2
  | node idx s e dim val b l r ihl ihr =>
    intro n hn
    simp only [BT.boxes, List.mem_cons, List.mem_append] at hn
    rcases hn with rfl | hn | hn
    · exact h.1
    · exact ihl h.2.1 n hn
    · exact ihr h.2.2.1 n hn

variable {pos : α → Point K d} {c : Cfg α K d} {d0 : Fin d}
  {part : Fin d → K → List (Point K d) → List (Point K d)}

theorem Reach.inv (hc : SplitOK c) (hpart : PartItems part (id : Point K d → Point K d))
    {t : Tree α K d} (h : Reach pos c d0 part t) : Inv pos t := by
  induction h with
  | new blank log2size => exact (emptyTree_inv blank log2size).1
  | insert pts h hcl hlen he ih => exact (insert_inv hc ih hcl hlen he).1
  | erase pts h he ih => exact (bulkEraseRebuild_inv hc hpart ih he).1
  | eraseKeep pts h he ih =>
    obtain ⟨t', e1, I1, _⟩ := bulkErase_spec hpart ih pts
    rw [he] at e1
    cases e1
    exact I1
  | eraseEach pts h he ih =>
    obtain ⟨t', e1, I1, _⟩ := erasePoints_spec pts ih
    rw [he] at e1
    cases e1
    exact I1

theorem orthogonalQuery_inv {t : Tree α K d} (hI : Inv pos t) (q : Box K d) :
    orthogonalQuery pos t q =
      (content t).filter fun x => decide (∀ i, q.lo i ≤ pos x i ∧ pos x i ≤ q.hi i) := by
  have hcongr : (fun x => itemInBox q (pos x)) =
      fun x => decide (∀ i, q.lo i ≤ pos x i ∧ pos x i ≤ q.hi i) := by
    funext x
    rw [Bool.eq_iff_iff, itemInBox_iff, decide_eq_true_iff]
    rfl
  unfold orthogonalQuery
  by_cases h0 : t.curSize = 0
  · rw [if_pos h0]
    have hct : content t = [] := List.eq_nil_of_length_eq_zero (hI.size.symm.trans h0)
    rw [hct]
    rfl
  · rw [if_neg h0]
    obtain ⟨g, hs, he⟩ := hI.good h0
    rw [orthAt_eq g, hs, he, content_eq, hcongr]

/-- **C23.** In every reachable state, whatever the points, an orthogonal query returns exactly the present
items inside the closed box, in storage order and with multiplicity. -/
theorem c23_orthogonalQuery_exact (hc : SplitOK c) (hpart : PartItems part (id : Point K d → Point K d))
    {t : Tree α K d} (h : Reach pos c d0 part t) (q : Box K d) :
    orthogonalQuery pos t q =
      (content t).filter fun x => decide (∀ i, q.lo i ≤ pos x i ∧ pos x i ≤ q.hi i) :=
  orthogonalQuery_inv (h.inv hc hpart) q

/-- **C25, all states.** Whatever the points, an erased batch removes only items listed in the batch, each
listed point at most one item; every box still contains the present items of its slice, and the size is
the number of present items. -/
theorem c25_erase_sound (hc : SplitOK c) (hpart : PartItems part (id : Point K d → Point K d))
    {t : Tree α K d} (h : Reach pos c d0 part t) (pts : List (Point K d)) :
    ∃ t', bulkErase pos part t pts = .ok t' ∧
      (∃ R : List α, (content t).Perm (content t' ++ R) ∧ (R.map pos).Subperm pts) ∧
      t'.curSize = (content t').length ∧
      (t'.curSize ≠ 0 → ∀ n ∈ t'.root.boxes, ∀ x ∈ live t'.items t'.present n.1 n.2.1,
        n.2.2.Mem (pos x)) := by
  obtain ⟨t', e1, I1, _, _, r1, _⟩ := bulkErase_spec hpart (h.inv hc hpart) pts
  exact ⟨t', e1, r1, I1.size, fun h0 => (I1.good h0).1.boxes⟩

theorem distinct_iff (L : List α) :
    DistinctPositions ((L.map pos : List (Point K d)) : Multiset (Point K d)) ↔ DistinctCoords pos L := by
  unfold DistinctPositions DistinctCoords
  refine forall_congr' fun dim => ?_
  rw [Multiset.map_coe, Multiset.coe_nodup, List.map_map]
  rfl

/-- The state after any allowed history. -/
theorem run_state (hc : CfgGood pos c) (hpart : PartItems part (id : Point K d → Point K d))
    (blank : α) (log2size : ℕ) (ops : List (Op α K d)) (hA : Allowed pos (2 ^ log2size) true 0 ops) :
    ∃ t, run pos c d0 part (emptyTree blank log2size) ops = .ok t ∧ Inv pos t ∧ SearchableT pos t ∧
      (((content t).map pos : List (Point K d)) : Multiset (Point K d)) = spec pos 0 ops := by
  have key : ∀ (ops : List (Op α K d)) (clean : Bool) (t : Tree α K d) (M : Multiset (Point K d)),
      Inv pos t → (clean = true → Clean t) → SearchableT pos t → t.maxSize = 2 ^ log2size →
      (((content t).map pos : List (Point K d)) : Multiset (Point K d)) = M → DistinctPositions M →
      Allowed pos (2 ^ log2size) clean M ops →
      ∃ t', run pos c d0 part t ops = .ok t' ∧ Inv pos t' ∧ SearchableT pos t' ∧
        (((content t').map pos : List (Point K d)) : Multiset (Point K d)) = spec pos M ops := by
    intro ops
    induction ops with
    | nil => exact fun clean t M hI hC hS hm hM hD _ => ⟨t, rfl, hI, hS, hM⟩
    | cons o ops ih =>
      intro clean t M hI hC hS hm hM hD hA
      have hDc : DistinctCoords pos (content t) := (distinct_iff _).1 (by rw [hM]; exact hD)
      have hcard : t.curSize = Multiset.card M := by
        rw [hI.size, ← hM, Multiset.coe_card, List.length_map]
      have hzero : t.curSize = 0 ↔ M = 0 := by rw [hcard, Multiset.card_eq_zero]
      cases o with
      | insert pts =>
        obtain ⟨a1, a2, a3, a4⟩ := hA
        have hnew : ((((content t) ++ pts).map pos : List (Point K d)) : Multiset (Point K d)) =
            specStep pos M (.insert pts) := by
          rw [List.map_append, ← Multiset.coe_add, hM]
          rfl
        have hDn : DistinctCoords pos (content t ++ pts) := (distinct_iff _).1 (by rw [hnew]; exact a3)
        have hlen : t.curSize + pts.length ≤ t.maxSize := by
          rw [hm, hcard]
          refine le_trans (le_of_eq ?_) a2
          show _ = Multiset.card (M + _)
          rw [Multiset.card_add, Multiset.coe_card, List.length_map]
        have hCl : Clean t := fun h0 => hC (a1 (hzero.1 h0)) h0
        obtain ⟨t', e1⟩ := insert_ok (d0 := d0) hc.ok (DistinctCoords pos) DistinctCoords.sub hc.sides hI hlen hDn
        obtain ⟨b1, b2, b3, b4, b5⟩ := insert_inv hc.ok hI hCl hlen e1
        obtain ⟨t'', e2, rest⟩ := ih clean t' _ b1 (fun _ => b2)
          (b5 (DistinctCoords pos) DistinctCoords.sub hc.strict hDn hS) (b4.trans hm)
          (by rw [← hnew]; exact Multiset.coe_eq_coe.2 (b3.map pos)) a3 a4
        refine ⟨t'', ?_, rest⟩
        simp only [run, step, e1, Except.bind]
        exact e2
      | erase pts =>
        obtain ⟨t', e1⟩ := bulkEraseRebuild_ok (d0 := d0) hc.ok hpart (DistinctCoords pos)
          DistinctCoords.sub hc.sides hI pts hDc
        obtain ⟨b1, b2, b3, b4, b5, b6⟩ := bulkEraseRebuild_inv hc.ok hpart hI e1
        have hpos : (((content t').map pos : List (Point K d)) : Multiset (Point K d)) =
            specStep pos M (.erase pts) := by
          rw [Multiset.coe_eq_coe.2 ((b5 hS).map pos), eraseAll_positions, hM]
          rfl
        have hD' : DistinctPositions (specStep pos M (.erase pts)) := by
          rw [← hpos, distinct_iff]
          exact (DistinctCoords.sub _ _ (eraseAll_sublist pos pts _).subperm hDc).perm (b5 hS)
        obtain ⟨t'', e2, rest⟩ := ih true t' _ b1 (fun _ => b2)
          (b6 (DistinctCoords pos) DistinctCoords.sub hc.strict hDc) (b3.trans hm) hpos hD' hA
        refine ⟨t'', ?_, rest⟩
        simp only [run, step, e1, Except.bind]
        exact e2
      | eraseKeep pts =>
        obtain ⟨t', e1, I1, m1, s1, r1, x1, z1⟩ := bulkErase_spec hpart hI pts
        obtain ⟨S1, c1⟩ := x1 hS
        have hpos : (((content t').map pos : List (Point K d)) : Multiset (Point K d)) =
            specStep pos M (.eraseKeep pts) := by
          rw [c1, eraseAll_positions, hM]
          rfl
        have hD' : DistinctPositions (specStep pos M (.eraseKeep pts)) := by
          rw [← hpos, distinct_iff]
          exact DistinctCoords.sub _ _ s1.subperm hDc
        have hcl : (clean && decide (M = 0 ∨ M - (pts : List (Point K d)) ≠ 0)) = true → Clean t' := by
          intro h
          rw [Bool.and_eq_true, decide_eq_true_iff] at h
          rcases h.2 with h0 | h0
          · rw [z1 (hzero.2 h0)]
            exact hC h.1
          · intro hz
            exfalso
            apply h0
            have : content t' = [] := List.eq_nil_of_length_eq_zero (I1.size.symm.trans hz)
            rw [this] at hpos
            exact hpos.symm
        obtain ⟨t'', e2, rest⟩ := ih _ t' _ I1 hcl S1 (m1.trans hm) hpos hD' hA
        refine ⟨t'', ?_, rest⟩
        simp only [run, step, e1, Except.bind]
        exact e2
      | eraseEach pts =>
        obtain ⟨t', e1, I1, m1, s1, r1, x1, z1⟩ := erasePoints_spec pts hI
        obtain ⟨S1, c1⟩ := x1 hS
        have hpos : (((content t').map pos : List (Point K d)) : Multiset (Point K d)) =
            specStep pos M (.eraseEach pts) := by
          rw [c1, eraseAll_positions, hM]
          rfl
        have hD' : DistinctPositions (specStep pos M (.eraseEach pts)) := by
          rw [← hpos, distinct_iff]
          exact DistinctCoords.sub _ _ s1.subperm hDc
        have hcl : (clean && decide (M = 0 ∨ M - (pts : List (Point K d)) ≠ 0)) = true → Clean t' := by
          intro h
          rw [Bool.and_eq_true, decide_eq_true_iff] at h
          rcases h.2 with h0 | h0
          · rw [z1 (hzero.2 h0)]
            exact hC h.1
          · intro hz
            exfalso
            apply h0
            have : content t' = [] := List.eq_nil_of_length_eq_zero (I1.size.symm.trans hz)
            rw [this] at hpos
            exact hpos.symm
        obtain ⟨t'', e2, rest⟩ := ih _ t' _ I1 hcl S1 (m1.trans hm) hpos hD' hA
        refine ⟨t'', ?_, rest⟩
        simp only [run, step, e1, Except.bind]
        exact e2
  obtain ⟨hI0, hC0⟩ := emptyTree_inv (pos := pos) blank log2size
  exact key ops true (emptyTree blank log2size) 0 hI0 (fun _ => hC0)
    (fun h => absurd rfl h) rfl (by
      have : content (emptyTree blank log2size : Tree α K d) = [] := by simp [content, emptyTree]
      rw [this]
      rfl) (fun dim => by simp) hA

/-- **C28, C22, C23, C25.** Any allowed history returns, and afterwards the size, `contains` and the
orthogonal query see exactly the multiset of positions that the history leaves: insertions add, a batch
erase subtracts the batch. In particular a tree emptied by `bulk_erase<true>` can be refilled. -/
theorem c28_history (hc : CfgGood pos c) (hpart : PartItems part (id : Point K d → Point K d))
    (blank : α) (log2size : ℕ) (ops : List (Op α K d)) (hA : Allowed pos (2 ^ log2size) true 0 ops) :
    ∃ t, run pos c d0 part (emptyTree blank log2size) ops = .ok t ∧
      t.curSize = Multiset.card (spec pos 0 ops) ∧
      (∀ p, ∃ r, contains pos t p = .ok r ∧ (r = true ↔ p ∈ spec pos 0 ops)) ∧
      (∀ q, (((orthogonalQuery pos t q).map pos : List (Point K d)) : Multiset (Point K d)) =
        (spec pos 0 ops).filter fun p => ∀ i, q.lo i ≤ p i ∧ p i ≤ q.hi i) := by
  obtain ⟨t, e, hI, hS, hM⟩ := run_state (d0 := d0) hc hpart blank log2size ops hA
  have hmem : ∀ p, (∃ x ∈ content t, pos x = p) ↔ p ∈ spec pos 0 ops := by
    intro p
    rw [← hM, Multiset.mem_coe, List.mem_map]
  have hcard : t.curSize = Multiset.card (spec pos 0 ops) := by
    rw [hI.size, ← hM, Multiset.coe_card, List.length_map]
  refine ⟨t, e, hcard, fun p => ?_, fun q => ?_⟩
  · unfold contains
    by_cases h0 : t.curSize = 0
    · rw [if_pos h0]
      refine ⟨false, rfl, ?_⟩
      rw [hcard, Multiset.card_eq_zero] at h0
      simp [h0]
    · rw [if_neg h0]
      obtain ⟨g, hs, he⟩ := hI.good h0
      obtain ⟨r, h1, h2⟩ := containsAt_eq g (hS h0) p
      refine ⟨r, h1, h2.trans ?_⟩
      rw [hs, he, ← content_eq, hmem]
  · have hq : orthogonalQuery pos t q =
        (content t).filter fun x => decide (∀ i, q.lo i ≤ pos x i ∧ pos x i ≤ q.hi i) := by
      have hcongr : (fun x => itemInBox q (pos x)) =
          fun x => decide (∀ i, q.lo i ≤ pos x i ∧ pos x i ≤ q.hi i) := by
        funext x
        rw [Bool.eq_iff_iff, itemInBox_iff, decide_eq_true_iff]
        rfl
      unfold orthogonalQuery
      by_cases h0 : t.curSize = 0
      · rw [if_pos h0]
        have hct : content t = [] := List.eq_nil_of_length_eq_zero (hI.size.symm.trans h0)
        rw [hct]
        rfl
      · rw [if_neg h0]
        obtain ⟨g, hs, he⟩ := hI.good h0
        rw [orthAt_eq g, hs, he, content_eq, hcongr]
    rw [hq, ← hM, Multiset.filter_coe, Multiset.coe_eq_coe, List.filter_map]
    rfl

/-! ### Partition contracts are met -/

/-- Selection by sorting meets the contract of `nth_element`. -/
def nthBySort (pos : α → Point K d) (dim : Fin d) (_ : ℕ) (L : List α) : List α :=
  L.insertionSort fun x y => pos x dim ≤ pos y dim

theorem sortBy_ok (pos : α → Point K d) :
    SortItems (fun (dim : Fin d) (L : List α) => L.insertionSort fun x y => pos x dim ≤ pos y dim) pos := by
  intro dim L
  have : Std.Total (fun x y : α => pos x dim ≤ pos y dim) := ⟨fun x y => le_total _ _⟩
  have : IsTrans α (fun x y : α => pos x dim ≤ pos y dim) := ⟨fun x y z => le_trans⟩
  exact ⟨List.perm_insertionSort _ _, List.pairwise_insertionSort _ _⟩

theorem nthBySort_ok (pos : α → Point K d) : NthItems (nthBySort pos) pos := by
  intro dim m L hm
  obtain ⟨hp, hs⟩ := sortBy_ok pos dim L
  refine ⟨hp, fun r hr => ?_⟩
  have hp' := hp.length_eq
  rw [List.pairwise_iff_getElem] at hs
  have hlt : m < (nthBySort pos dim m L).length := by
    rw [List.getElem?_eq_some_iff] at hr
    exact hr.1
  rw [List.getElem?_eq_getElem hlt, Option.some.injEq] at hr
  subst hr
  refine ⟨fun x hx => ?_, fun y hy => ?_⟩
  · rw [List.mem_take_iff_getElem] at hx
    obtain ⟨i, hi, rfl⟩ := hx
    exact hs i m (by omega) hlt (by omega)
  · rw [List.mem_drop_iff_getElem] at hy
    obtain ⟨i, hi, rfl⟩ := hy
    rcases Nat.eq_zero_or_pos i with rfl | h
    · exact le_rfl
    · exact hs m (m + i) hlt (by rw [Nat.add_comm]; exact hi) (by omega)

/-- Stable partition. -/
def stablePart (pos : α → Point K d) (dim : Fin d) (v : K) (L : List α) : List α :=
  (L.filter fun x => decide (pos x dim < v)) ++ L.filter fun x => !decide (pos x dim < v)

theorem stablePart_ok (pos : α → Point K d) : PartItems (stablePart pos) pos := by
  intro dim v L
  refine ⟨List.filter_append_perm _ _, ?_, ?_⟩
  · unfold stablePart
    rw [List.countP_eq_length_filter, List.take_left]
    intro x hx
    simpa using (List.mem_filter.1 hx).2
  · unfold stablePart
    rw [List.countP_eq_length_filter, List.drop_left]
    intro x hx
    simpa using (List.mem_filter.1 hx).2

variable [IsStrictOrderedRing K]

/-- Object-median configurations with any selection and sorting routine that meets its contract. -/
theorem objectCfg_good {nth : Fin d → ℕ → List α → List α} {srt : Fin d → List α → List α}
    {leafSize : ℕ} {par : ℕ → Bool} (hn : NthItems nth pos) (hs : SortItems srt pos)
    (hl : 1 ≤ leafSize) : CfgGood pos (objectCfg leafSize par nth srt pos) :=
  ⟨objectCfg_ok hn hs hl, objectCfg_strict hn hs hl, fun dim L _ hL => by
    rw [objectCfg_split_snd]
    have : leafSize < L.length := hL
    omega⟩

/-- Spatial-median configurations. -/
theorem spatialCfg_good {leafSize : ℕ} {prt : Fin d → K → List α → List α} (hp : PartItems prt pos)
    (hl : 1 ≤ leafSize) : CfgGood pos (spatialCfg leafSize prt pos) :=
  ⟨spatialCfg_ok hp, fun dim L _ _ => spatialCfg_strict hp dim L, fun dim L hD hL => by
    have : leafSize < L.length := hL
    exact ⟨spatialCfg_pos dim L hD (by omega), spatialCfg_lt dim L (by
      rintro rfl
      simp at this)⟩⟩

/-! ### C22: searching after a build -/

/-- Searching in a built tree, given that its splits are strict on the points. -/
theorem contains_after_build (hc : SplitOK c) (P : List α → Prop)
    (hP : ∀ L L' : List α, L'.Subperm L → P L → P L')
    (hst : ∀ dim L, P L → c.leafSize < L.length →
      (∀ x ∈ (c.split dim L).1.take (c.split dim L).2.2, pos x dim < (c.split dim L).2.1) ∧
      (∀ x ∈ (c.split dim L).1.drop (c.split dim L).2.2, (c.split dim L).2.1 ≤ pos x dim))
    (blank : α) (log2size : ℕ) {pts : List α} (hlen : pts.length ≤ 2 ^ log2size) (hpts : P pts)
    {t : Tree α K d} (h : buildPoints pos c d0 (emptyTree blank log2size) pts = .ok t) (p : Point K d) :
    ∃ r, find pos t p = .ok r ∧ contains pos t p = .ok r.isSome ∧
      (r.isSome = true ↔ ∃ x ∈ pts, pos x = p) ∧
      ∀ f, r = some f → ∃ s e x, (f.idx, s, e, f.parent, f.gparent) ∈ t.root.leaves none none ∧
        s + f.point < e ∧ t.items[s + f.point]? = some x ∧ t.present[s + f.point]? = some true ∧
        pos x = p := by
  obtain ⟨hI, hperm, hcur, _, _, hS⟩ := buildPoints_inv hc (t := emptyTree blank log2size)
    (by simp [emptyTree]) (by simp [emptyTree])
    (by
      show (List.replicate _ true).take _ = _
      exact take_replicate_true hlen) hlen h
  have hS := hS P hP hst hpts
  unfold find contains
  by_cases h0 : t.curSize = 0
  · rw [if_pos h0, if_pos h0]
    have : pts = [] := List.eq_nil_of_length_eq_zero (hcur.symm.trans h0)
    subst this
    exact ⟨none, rfl, rfl, by simp, fun f hf => by cases hf⟩
  · rw [if_neg h0, if_neg h0]
    obtain ⟨g, hs, he⟩ := hI.good h0
    obtain ⟨r, h1, h2⟩ := findAt_contains g p none none
    obtain ⟨r', h3, h4⟩ := containsAt_eq g (hS h0) p
    rw [h2] at h3
    cases h3
    refine ⟨r, h1, h2, ?_, ?_⟩
    · rw [h4, hs, he, ← content_eq]
      constructor
      · rintro ⟨x, hx, e⟩
        exact ⟨x, hperm.mem_iff.1 hx, e⟩
      · rintro ⟨x, hx, e⟩
        exact ⟨x, hperm.mem_iff.2 hx, e⟩
    · rintro f rfl
      exact findAt_spec g h1

/-- **C22, object median (default).** For points without equal coordinates in a dimension, the build
returns and `contains` and `find` see exactly the points of the build; `find` reports the leaf, its parent
and grandparent, and the offset of a present item at that position. -/
theorem c22_object_partial {nth : Fin d → ℕ → List α → List α} {srt : Fin d → List α → List α}
    {leafSize : ℕ} {par : ℕ → Bool} (hn : NthItems nth pos) (hs : SortItems srt pos) (hl : 1 ≤ leafSize)
    (blank : α) (log2size : ℕ) {pts : List α} (hlen : pts.length ≤ 2 ^ log2size)
    (hpts : DistinctCoords pos pts) :
    ∃ t, buildPoints pos (objectCfg leafSize par nth srt pos) d0 (emptyTree blank log2size) pts = .ok t ∧
      ∀ p, ∃ r, find pos t p = .ok r ∧ contains pos t p = .ok r.isSome ∧
        (r.isSome = true ↔ ∃ x ∈ pts, pos x = p) ∧
        ∀ f, r = some f → ∃ s e x, (f.idx, s, e, f.parent, f.gparent) ∈ t.root.leaves none none ∧
          s + f.point < e ∧ t.items[s + f.point]? = some x ∧ t.present[s + f.point]? = some true ∧
          pos x = p := by
  have hg := objectCfg_good (par := par) hn hs hl
  obtain ⟨t, h⟩ := buildPoints_ok (d0 := d0) (t := emptyTree blank log2size) hg.ok (DistinctCoords pos)
    DistinctCoords.sub hg.sides (by simpa [emptyTree] using hlen) hpts
  exact ⟨t, h, contains_after_build hg.ok _ DistinctCoords.sub hg.strict blank log2size hlen hpts h⟩

/-- **C22, spatial median.** For any points: if the build returns, `contains` and `find` are exact. -/
theorem c22_spatial_partial {leafSize : ℕ} {prt : Fin d → K → List α → List α} (hp : PartItems prt pos)
    (blank : α) (log2size : ℕ) {pts : List α} (hlen : pts.length ≤ 2 ^ log2size) {t : Tree α K d}
    (h : buildPoints pos (spatialCfg leafSize prt pos) d0 (emptyTree blank log2size) pts = .ok t)
    (p : Point K d) :
    ∃ r, find pos t p = .ok r ∧ contains pos t p = .ok r.isSome ∧
      (r.isSome = true ↔ ∃ x ∈ pts, pos x = p) ∧
      ∀ f, r = some f → ∃ s e x, (f.idx, s, e, f.parent, f.gparent) ∈ t.root.leaves none none ∧
        s + f.point < e ∧ t.items[s + f.point]? = some x ∧ t.present[s + f.point]? = some true ∧
        pos x = p :=
  contains_after_build (spatialCfg_ok hp) (fun _ => True) (fun _ _ _ _ => trivial)
    (fun dim L _ _ => spatialCfg_strict hp dim L) blank log2size hlen trivial h p

/-! ### C25 and C28 for single steps -/

/-- **C25.** In a state in which every item can be searched for, a batch erase leaves the multiset
difference of the stored positions and the batch, keeps every item searchable, and the order of the
remaining items. -/
theorem c25_erase_exact_partial (hc : CfgGood pos c) (hpart : PartItems part (id : Point K d → Point K d))
    (blank : α) (log2size : ℕ) {pts : List α} (hlen : pts.length ≤ 2 ^ log2size)
    (hpts : DistinctCoords pos pts) (del : List (Point K d)) :
    ∃ t t', buildPoints pos c d0 (emptyTree blank log2size) pts = .ok t ∧
      bulkErase pos part t del = .ok t' ∧
      (((content t').map pos : List (Point K d)) : Multiset (Point K d)) =
        ((pts.map pos : List (Point K d)) : Multiset (Point K d)) - (del : List (Point K d)) ∧
      t'.curSize = (content t').length ∧
      ∀ p, ∃ r, contains pos t' p = .ok r ∧ (r = true ↔ ∃ x ∈ pts, pos x = p ∧ p ∉ del) := by
  obtain ⟨t, h⟩ := buildPoints_ok (d0 := d0) (t := emptyTree blank log2size) hc.ok (DistinctCoords pos)
    DistinctCoords.sub hc.sides (by simpa [emptyTree] using hlen) hpts
  obtain ⟨hI, hperm, hcur, _, _, hS⟩ := buildPoints_inv hc.ok (t := emptyTree blank log2size)
    (by simp [emptyTree]) (by simp [emptyTree])
    (by
      show (List.replicate _ true).take _ = _
      exact take_replicate_true hlen) hlen h
  have hS := hS _ DistinctCoords.sub hc.strict hpts
  obtain ⟨t', e1, I1, m1, s1, r1, x1, z1⟩ := bulkErase_spec hpart hI del
  obtain ⟨S1, c1⟩ := x1 hS
  have hM : (((content t').map pos : List (Point K d)) : Multiset (Point K d)) =
      ((pts.map pos : List (Point K d)) : Multiset (Point K d)) - (del : List (Point K d)) := by
    rw [c1, eraseAll_positions, Multiset.coe_eq_coe.2 (hperm.map pos)]
  refine ⟨t, t', h, e1, hM, I1.size, fun p => ?_⟩
  have hmem : (∃ x ∈ content t', pos x = p) ↔ ∃ x ∈ pts, pos x = p ∧ p ∉ del := by
    rw [← List.mem_map (f := pos) (l := content t'), ← Multiset.mem_coe, hM]
    by_cases hd : d = 0
    · exact absurd d0.2 (by omega)
    · have hnd : (pts.map pos).Nodup := by
        have := hpts d0
        have he : (pts.map fun x => pos x d0) = (pts.map pos).map fun q => q d0 := by
          rw [List.map_map]; rfl
        rw [he] at this
        exact this.of_map
      rw [Multiset.mem_sub_of_nodup (Multiset.coe_nodup.2 hnd), Multiset.mem_coe, Multiset.mem_coe,
        List.mem_map]
      constructor
      · rintro ⟨⟨x, hx, e⟩, h⟩
        exact ⟨x, hx, e, h⟩
      · rintro ⟨x, hx, e, h⟩
        exact ⟨⟨x, hx, e⟩, h⟩
  unfold contains
  by_cases h0 : t'.curSize = 0
  · rw [if_pos h0]
    refine ⟨false, rfl, ?_⟩
    rw [← hmem]
    have hct : content t' = [] := List.eq_nil_of_length_eq_zero (I1.size.symm.trans h0)
    simp [hct]
  · rw [if_neg h0]
    obtain ⟨g, hs, he⟩ := I1.good h0
    obtain ⟨r, h1, h2⟩ := containsAt_eq g (S1 h0) p
    refine ⟨r, h1, h2.trans ?_⟩
    rw [hs, he, ← content_eq, hmem]

/-! ### C29: places of the nodes -/

/-- **C29, object median.** A tree over at most `2^log2size` points uses pairwise different places, all
below the allocated number of nodes `2 * max_size - 1`. -/
theorem c29_heap_layout {nth : Fin d → ℕ → List α → List α} {srt : Fin d → List α → List α}
    {leafSize : ℕ} {par : ℕ → Bool} (hn : NthItems nth pos) (hs : SortItems srt pos) (hl : 1 ≤ leafSize)
    {t0 t : Tree α K d} {log2size : ℕ} (hmax : t0.maxSize = 2 ^ log2size) {pts : List α}
    (hlen : pts.length ≤ t0.maxSize) (hit : t0.items.length = t0.maxSize)
    (h : buildPoints pos (objectCfg leafSize par nth srt pos) d0 t0 pts = .ok t) :
    t.root.indices.Nodup ∧ ∀ j ∈ t.root.indices, j < 2 * t.maxSize - 1 := by
  unfold buildPoints buildAll at h
  rw [if_neg (by omega)] at h
  simp only [List.take_left] at h
  cases hb : buildRec (objectCfg leafSize par nth srt pos) pos
      (stalePos pos (pts ++ t0.items.drop pts.length)) (pts.length + 1) 0 0 d0 pts with
  | error e => rw [hb] at h; cases h
  | ok r =>
    rw [hb] at h
    simp only [Except.map, Except.ok.injEq] at h
    subst h
    obtain ⟨h1, h2⟩ := buildRec_heap (objectCfg_ok hn hs hl) hl (fun _ _ => rfl)
      (fun dim L _ => objectCfg_split_snd dim L) log2size hb (by rw [← hmax]; exact hlen)
    refine ⟨h2, fun j hj => ?_⟩
    have := (h1 j hj).lt
    show j < 2 * t0.maxSize - 1
    rw [hmax]
    omega

/-- **C29, spatial median.** -/
theorem c29_preorder_layout {leafSize : ℕ} {prt : Fin d → K → List α → List α} (hp : PartItems prt pos)
    {t0 t : Tree α K d} {pts : List α} (hne : pts ≠ [])
    (hlen : pts.length ≤ t0.maxSize) (hit : t0.items.length = t0.maxSize)
    (h : buildPoints pos (spatialCfg leafSize prt pos) d0 t0 pts = .ok t) :
    t.root.indices.Nodup ∧ ∀ j ∈ t.root.indices, j < 2 * t.maxSize - 1 := by
  unfold buildPoints buildAll at h
  rw [if_neg (by omega)] at h
  simp only [List.take_left] at h
  cases hb : buildRec (spatialCfg leafSize prt pos) pos
      (stalePos pos (pts ++ t0.items.drop pts.length)) (pts.length + 1) 0 0 d0 pts with
  | error e => rw [hb] at h; cases h
  | ok r =>
    rw [hb] at h
    simp only [Except.map, Except.ok.injEq] at h
    subst h
    obtain ⟨h1, h2⟩ := buildRec_preorder (spatialCfg_ok hp) (fun _ _ => rfl)
      (fun dim L hL => spatialCfg_lt dim L (by
        rintro rfl
        simp at hL)) hb hne
    refine ⟨h2, fun j hj => ?_⟩
    have := (h1 j hj).2
    show j < 2 * t0.maxSize - 1
    omega

end

/-! ### Concrete cases and counterexamples -/

section Examples

/-- Points of the plane with rational coordinates. -/
def pt (x y : ℚ) : Point ℚ 2 := fun i => if i = 0 then x else y

/-- Items are pairs. -/
def ppos (a : ℚ × ℚ) : Point ℚ 2 := pt a.1 a.2

/-- Object median, leaf size 1, sequential. -/
def cfgO : Cfg (ℚ × ℚ) ℚ 2 :=
  objectCfg 1 (fun _ => false) (nthBySort ppos)
    (fun dim L => L.insertionSort fun x y => ppos x dim ≤ ppos y dim) ppos

/-- Spatial median, leaf size 1. -/
def cfgS : Cfg (ℚ × ℚ) ℚ 2 := spatialCfg 1 (stablePart ppos) ppos

theorem cfgO_good : CfgGood ppos cfgO := objectCfg_good (nthBySort_ok _) (sortBy_ok _) le_rfl

theorem cfgS_good : CfgGood ppos cfgS := spatialCfg_good (stablePart_ok _) le_rfl

/-- An empty tree for four points. -/
def four : Tree (ℚ × ℚ) ℚ 2 := emptyTree (0, 0) 2

/-- What a run shows: size, `contains` of some points, result of a box query. -/
def observe (ps : List (ℚ × ℚ)) (q : Box ℚ 2) (r : Except Err (Tree (ℚ × ℚ) ℚ 2)) :
    Option (ℕ × List (Option Bool) × List (ℚ × ℚ)) :=
  match r with
  | .ok t => some (t.curSize,
      ps.map (fun p => match contains ppos t (ppos p) with | .ok b => some b | .error _ => none),
      orthogonalQuery ppos t q)
  | .error _ => none

/-- Hypotheses of the history theorem hold for a history with a refill. -/
example : Allowed ppos (2 ^ 2) true 0
    [.insert [(1, 4), (2, 3), (3, 2)], .erase [pt 1 4, pt 2 3, pt 3 2], .insert [(7, 8)]] := by
  have hM : ∀ L : List (ℚ × ℚ), DistinctPositions ((L.map ppos : List (Point ℚ 2)) : Multiset (Point ℚ 2)) ↔
    DistinctCoords ppos L := fun L => distinct_iff L
  refine ⟨fun _ => rfl, by simp [specStep], ?_, ?_⟩
  · simp only [specStep, zero_add]
    rw [hM]
    intro dim
    fin_cases dim <;> decide
  · show Allowed _ _ _ _ _
    have h0 : specStep ppos (specStep ppos 0 (.insert [(1, 4), (2, 3), (3, 2)]))
        (.erase [pt 1 4, pt 2 3, pt 3 2]) = 0 := by
      simp [specStep, ppos]
    rw [Allowed, h0]
    refine ⟨fun _ => rfl, by simp [specStep], ?_, trivial⟩
    simp only [specStep, zero_add]
    rw [hM]
    intro dim
    fin_cases dim <;> decide

/-- A history on the model: build, erase, refill. -/
example : observe [(1, 4), (2, 3), (7, 8)] ⟨pt 0 0, pt 9 9⟩
    (run ppos cfgO 0 (stablePart id) four
      [.insert [(1, 4), (2, 3), (3, 2)], .erase [pt 1 4, pt 3 2], .insert [(7, 8)]]) =
    some (2, [some false, some true, some true], [(2, 3), (7, 8)]) := by decide +kernel

/-- The same with spatial splits. -/
example : observe [(1, 4), (2, 3), (7, 8)] ⟨pt 0 0, pt 2 9⟩
    (run ppos cfgS 0 (stablePart id) four
      [.insert [(1, 4), (2, 3), (3, 2)], .eraseKeep [pt 1 4], .insert [(7, 8)]]) =
    some (3, [some false, some true, some true], [(2, 3)]) := by decide +kernel

/-- **C22 fails on ties (object median).** A stored point whose coordinate equals the split value but lies
in the left half is not found. -/
theorem c22_object_ties_false :
    observe [(5, 1), (5, 2)] ⟨pt 0 0, pt 9 9⟩
      (run ppos cfgO 0 (stablePart id) four [.insert [(5, 1), (5, 2)]]) =
      some (2, [some false, some true], [(5, 1), (5, 2)]) := by decide +kernel

/-- **C22 fails for the spatial split** of points with equal coordinates in the split dimension: the left
side is empty, which the code does not handle. -/
theorem c22_spatial_flat_false :
    run ppos cfgS 0 (stablePart id) four [.insert [(5, 1), (5, 2)]] |>.toOption.isNone := by decide +kernel

/-- **C25 fails on ties (object median).** Erasing a stored point does nothing. -/
theorem c25_object_ties_false :
    observe [] ⟨pt 0 0, pt 9 9⟩
      (run ppos cfgO 0 (stablePart id) four [.insert [(5, 1), (5, 2)], .erase [pt 5 1]]) =
      some (2, [], [(5, 1), (5, 2)]) := by decide +kernel

/-- **C28 fails for `bulk_erase<false>`.** After erasing everything without a rebuild, an inserted point is
counted but invisible to every query. -/
theorem c28_refill_false :
    observe [(7, 8)] ⟨pt 0 0, pt 9 9⟩
      (run ppos cfgO 0 (stablePart id) four [.insert [(1, 4)], .eraseKeep [pt 1 4], .insert [(7, 8)]]) =
      some (1, [some false], []) := by decide +kernel

/-- Places of the nodes in the two layouts (three points). -/
example : (match run ppos cfgO 0 (stablePart id) four [.insert [(1, 4), (2, 3), (3, 2)]] with
    | .ok t => t.root.indices | .error _ => []) = [0, 1, 2, 5, 6] := by decide +kernel

example : (match run ppos cfgS 0 (stablePart id) four [.insert [(1, 4), (2, 3), (3, 2)]] with
    | .ok t => t.root.indices | .error _ => []) = [0, 1, 2, 3, 4] := by decide +kernel

/-- A reachable state with ties for the theorems about all states. -/
example : ∃ t, Reach ppos cfgO 0 (stablePart id) t ∧ t.curSize = 2 := by
  obtain ⟨t, h⟩ := insert_ok (d0 := 0) cfgO_good.ok (fun _ => True) (fun _ _ _ _ => trivial)
    (fun dim L _ hL => by
      have h1 : 1 < L.length := hL
      have h2 : (cfgO.split dim L).2.2 = L.length / 2 := objectCfg_split_snd dim L
      omega) (t := four) (pts := [(5, 1), (5, 2)]) (emptyTree_inv (pos := ppos) _ _).1 (by decide) trivial
  refine ⟨t, Reach.insert _ (Reach.new (0, 0) 2) (fun _ => rfl) (by decide) h, ?_⟩
  have := (insert_inv cfgO_good.ok (emptyTree_inv (pos := ppos) _ _).1
    (emptyTree_inv (pos := ppos) _ _).2 (by decide) h)
  rw [this.1.size, this.2.2.1.length_eq]
  rfl

end Examples

end Verif.BatchKd
