import Verif.KdTree.KnnBufLemmas

set_option linter.unusedSectionVars false
set_option linter.unusedVariables false

/-!
Property C05: the k-nearest buffer.
-/

namespace Verif.KnnBuf

variable {α K : Type} [LinearOrder K]

/-- Specification: `kept` are `k` elements of `all` (with multiplicity) of smallest cost. -/
def KSmallest {β : Type} (cost : β → K) (k : ℕ) (all kept : List β) : Prop :=
  kept.length = k ∧ ∃ rest, (kept ++ rest).Perm all ∧ ∀ x ∈ kept, ∀ y ∈ rest, cost x ≤ cost y

/-- Specification: the elements inserted by a history. -/
def inserted : List (Op α K) → List (K × α)
  | [] => []
  | .ins e :: ops => e :: inserted ops
  | .keep :: ops => inserted ops

/-- Specification: every `keepK` of the history is made after at least `k` inserts (`n` were made
before). -/
def Legal (k : ℕ) : ℕ → List (Op α K) → Prop
  | _, [] => True
  | n, .ins _ :: ops => Legal k (n + 1) ops
  | n, .keep :: ops => k ≤ n ∧ Legal k n ops

/-- From the invariant: what `keepK` returns. -/
theorem Inv.keepK_spec {nth : ℕ → List (Slot α K) → List (Slot α K)} (hn : NthSpec nth) {k : ℕ}
    {ins lost : List (K × α)} {b : Buf α K} (h : Inv k ins b lost) (hp : k ≤ ins.length) :
    ∃ b' kept r, b.keepK nth = .ok (b', some r) ∧ Inv k ins b' lost ∧ b'.ptr = k ∧
      b'.buf.take k = kept.map some ∧ KSmallest (·.1) k ins kept ∧ r ∈ kept ∧
      ∀ x ∈ kept, x.1 ≤ r.1 := by
  obtain ⟨b', r, h1, h2, h3, h4, h5, h6⟩ := keepK_inv hn h.hk h.kpos h.len h.perm h.lost_le h.full
    (h.ptr_iff.mpr hp)
  have hfull := h2.full
  rw [h3] at hfull
  have hmap := forall_some hfull
  have hlen := h2.len
  refine ⟨b', (b'.buf.take k).reduceOption, r, h1, h2, h3, hmap, ⟨?_, ?_⟩, ?_, ?_⟩
  · have := congrArg List.length hmap
    simp at this
    omega
  · refine ⟨(b'.buf.drop k).reduceOption ++ lost, ?_, ?_⟩
    · rw [← List.append_assoc, ← List.reduceOption_append, List.take_append_drop]
      exact h2.perm
    · intro x hx y hy
      rw [List.reduceOption_mem_iff] at hx
      have hx' := h5 _ hx
      simp only [cost_some, WithTop.coe_le_coe] at hx'
      rw [List.mem_append, List.reduceOption_mem_iff] at hy
      rcases hy with hy | hy
      · have := h6 _ hy
        simp only [cost_some, WithTop.coe_le_coe] at this
        exact hx'.trans this
      · by_contra hlt
        rw [not_le] at hlt
        have hc := h2.lost_le y hy
        rw [← List.take_append_drop k b'.buf, List.countP_append] at hc
        have h7 : (b'.buf.drop k).countP (fun s => Slot.cost s ≤ (y.1 : WithTop K)) = 0 := by
          rw [List.countP_eq_zero]
          intro s hs
          have := h6 s hs
          have h8 : (y.1 : WithTop K) < r.1 := by
            rw [WithTop.coe_lt_coe]; exact lt_of_lt_of_le hlt hx'
          simpa using lt_of_lt_of_le h8 this
        have h9 : (b'.buf.take k).countP (fun s => Slot.cost s ≤ (y.1 : WithTop K)) <
            (b'.buf.take k).length := by
          refine lt_of_le_of_ne List.countP_le_length ?_
          rw [Ne, List.countP_eq_length]
          intro hall
          have := hall _ hx
          simp at this
          exact absurd this (not_le.mpr hlt)
        simp at h9
        omega
  · rw [List.reduceOption_mem_iff]
    have hlt : k - 1 < b'.buf.length := by have := h.kpos; omega
    have : (b'.buf.take k)[k - 1]? = some (some r) := by
      rw [List.getElem?_take, if_pos (by have := h.kpos; omega), h4]
    exact List.mem_of_getElem? this
  · intro x hx
    rw [List.reduceOption_mem_iff] at hx
    have := h5 _ hx
    simpa using this

theorem run_inv {nth : ℕ → List (Slot α K) → List (Slot α K)} (hn : NthSpec nth) {k : ℕ}
    (ops : List (Op α K)) {ins lost : List (K × α)} {b : Buf α K} (h : Inv k ins b lost)
    (hl : Legal k ins.length ops) :
    ∃ b' lost' ins', b.run nth ops = .ok b' ∧ Inv k ins' b' lost' ∧
      ins'.Perm (inserted ops ++ ins) := by
  induction ops generalizing ins lost b with
  | nil => exact ⟨b, lost, ins, rfl, h, List.Perm.refl _⟩
  | cons op ops ih =>
    cases op with
    | ins e =>
      obtain ⟨b', lost', h1, h2⟩ := insert_inv hn h e
      obtain ⟨b'', lost'', ins'', h3, h4, h5⟩ := ih h2 hl
      refine ⟨b'', lost'', ins'', ?_, h4, h5.trans ?_⟩
      · unfold Buf.run
        rw [h1]
        exact h3
      · exact List.perm_middle
    | keep =>
      obtain ⟨b', _, r, h1, h2, -⟩ := h.keepK_spec hn hl.1
      obtain ⟨b'', lost'', ins'', h3, h4, h5⟩ := ih h2 hl.2
      refine ⟨b'', lost'', ins'', ?_, h4, h5⟩
      unfold Buf.run
      rw [h1]
      exact h3

/-- C05. For every `k ≥ 1`, every history of inserts and `keepK` calls in which every `keepK` comes
after at least `k` inserts, and every `nth_element` meeting its contract: the history runs without
error, and a `keepK` made then throws if fewer than `k` elements were inserted, and otherwise leaves
in the first `k` slots `k` inserted elements of smallest cost and returns one of these of largest
cost, that is, one of `k`-th smallest cost of all inserted. -/
theorem c05_keepK (nth : ℕ → List (Slot α K) → List (Slot α K)) (hn : NthSpec nth) (k : ℕ)
    (hk : 1 ≤ k) (ops : List (Op α K)) (hl : Legal k 0 ops) :
    ∃ b : Buf α K, (Buf.new k).run nth ops = .ok b ∧
      (b.hasK ↔ k ≤ (inserted ops).length) ∧
      ((inserted ops).length < k → b.keepK nth = .error .throws) ∧
      (k ≤ (inserted ops).length → ∃ b' kept r, b.keepK nth = .ok (b', some r) ∧
        b'.buf.take k = kept.map some ∧ KSmallest (·.1) k (inserted ops) kept ∧ r ∈ kept ∧
        ∀ x ∈ kept, x.1 ≤ r.1) := by
  obtain ⟨b, lost, ins, h1, h2, h3⟩ := run_inv hn ops (inv_new k hk) hl
  rw [List.append_nil] at h3
  refine ⟨b, h1, ?_, ?_, ?_⟩
  · unfold Buf.hasK
    rw [decide_eq_true_iff, h2.hk, h2.ptr_iff, h3.length_eq]
  · intro hlt
    unfold Buf.keepK
    rw [if_pos]
    rw [h2.hk]
    by_contra hc
    have := h2.ptr_iff.mp (by omega)
    rw [h3.length_eq] at this
    omega
  · intro hge
    obtain ⟨b', kept, r, h4, _, _, h5, h6, h7, h8⟩ := h2.keepK_spec hn (by rw [h3.length_eq]; exact hge)
    refine ⟨b', kept, r, h4, h5, ⟨h6.1, ?_⟩, h7, h8⟩
    obtain ⟨rest, hr1, hr2⟩ := h6.2
    exact ⟨rest, hr1.trans h3, hr2⟩

/-- C05: asking an empty buffer with `k ≥ 1` throws. -/
theorem c05_throws (nth : ℕ → List (Slot α K) → List (Slot α K)) (k : ℕ) (hk : 1 ≤ k) :
    (Buf.new k : Buf α K).keepK nth = .error .throws := by
  unfold Buf.keepK
  rw [if_pos]
  exact hk

/-- With `k = 0` the first insert writes outside the (empty) slice. -/
theorem c05_k_zero (nth : ℕ → List (Slot α K) → List (Slot α K)) (e : K × α) :
    (Buf.new 0 : Buf α K).insert nth e = .error .ub := by
  simp [Buf.insert, Buf.new]

theorem insertSlot_perm (s : Slot α K) (l : List (Slot α K)) : (insertSlot s l).Perm (s :: l) := by
  induction l with
  | nil => exact List.Perm.refl _
  | cons a l ih =>
    unfold insertSlot
    split
    · exact List.Perm.refl _
    · exact (ih.cons a).trans (List.Perm.swap _ _ _)

theorem sortSlots_perm (l : List (Slot α K)) : (sortSlots l).Perm l := by
  induction l with
  | nil => exact List.Perm.refl _
  | cons a l ih => exact (insertSlot_perm _ _).trans (ih.cons a)

theorem insertSlot_sorted (s : Slot α K) (l : List (Slot α K))
    (h : l.Pairwise fun x y => Slot.cost x ≤ Slot.cost y) :
    (insertSlot s l).Pairwise fun x y => Slot.cost x ≤ Slot.cost y := by
  induction l with
  | nil => simp [insertSlot]
  | cons a l ih =>
    unfold insertSlot
    rw [List.pairwise_cons] at h
    split
    · rename_i hc
      rw [List.pairwise_cons]
      refine ⟨?_, List.pairwise_cons.mpr h⟩
      intro y hy
      rw [List.mem_cons] at hy
      rcases hy with rfl | hy
      · exact hc
      · exact hc.trans (h.1 y hy)
    · rename_i hc
      rw [List.pairwise_cons]
      refine ⟨?_, ih h.2⟩
      intro y hy
      rw [(insertSlot_perm s l).mem_iff, List.mem_cons] at hy
      rcases hy with rfl | hy
      · exact (not_le.mp hc).le
      · exact h.1 y hy

theorem sortSlots_sorted (l : List (Slot α K)) :
    (sortSlots l).Pairwise fun x y => Slot.cost x ≤ Slot.cost y := by
  induction l with
  | nil => exact List.Pairwise.nil
  | cons a l ih => exact insertSlot_sorted _ _ ih

/-- The contract of `std::nth_element` can be met. -/
theorem nthSpec_sort : NthSpec (fun _ l => sortSlots l : ℕ → List (Slot α K) → List (Slot α K)) := by
  intro m l hm
  refine ⟨sortSlots_perm l, ?_⟩
  intro r hr
  have hs := sortSlots_sorted l
  have hlt : m < (sortSlots l).length := by rw [(sortSlots_perm l).length_eq]; exact hm
  rw [List.getElem?_eq_getElem hlt, Option.some.injEq] at hr
  have hdrop : (sortSlots l).drop m = r :: (sortSlots l).drop (m + 1) := by
    rw [List.drop_eq_getElem_cons hlt, hr]
  rw [← List.take_append_drop m (sortSlots l), List.pairwise_append] at hs
  obtain ⟨h1, h2, h3⟩ := hs
  simp only at *
  constructor
  · intro x hx
    exact h3 x hx r (by rw [hdrop]; simp)
  · intro y hy
    rw [hdrop] at hy h2
    rw [List.mem_cons] at hy
    rcases hy with rfl | hy
    · exact le_refl _
    · exact (List.pairwise_cons.mp h2).1 y hy

theorem sortSpec_sort : SortSpec (sortSlots : List (Slot α K) → List (Slot α K)) :=
  fun l => ⟨sortSlots_perm l, sortSlots_sorted l⟩

/-- Non-vacuity of `c05_keepK`: a legal history with an interleaved `keepK` that fills the buffer
(so that elements are dropped). -/
example : Legal 2 0 [Op.ins (5, 'a'), .ins (3, 'b'), .keep, .ins (4, 'c'), .ins (1, 'd'),
    .ins (9, 'e')] ∧
    ((Buf.new 2 : Buf Char ℕ).run (fun _ l => sortSlots l) [Op.ins (5, 'a'), .ins (3, 'b'), .keep,
      .ins (4, 'c'), .ins (1, 'd'), .ins (9, 'e')]).toOption.map (fun b => b.buf.take 2) =
      some [some (1, 'd'), some (3, 'b')] := by
  refine ⟨by simp [Legal], by decide⟩

end Verif.KnnBuf
