import Verif.BatchKd.TreeLemmas
import Verif.KdTree.RangeProps

set_option linter.unusedSectionVars false
set_option linter.unusedVariables false

/-! Queries of the batch kd-tree on a subtree that satisfies the invariants. -/

namespace Verif.BatchKd

variable {α K : Type} {d : ℕ}

section
variable [Field K] [LinearOrder K]

theorem itemInBox_iff (q : Box K d) (p : Point K d) : itemInBox q p = true ↔ q.Mem p := by
  unfold itemInBox Box.Mem
  rw [decide_eq_true_iff]
  refine forall_congr' fun i => ?_
  rw [not_or, not_lt, gt_iff_lt, not_lt]
  exact and_comm

/-- Specification: the leaves of a tree, with place, slice, and the places of parent and grandparent. -/
def BT.leaves : Option ℕ → Option ℕ → BT K d → List (ℕ × ℕ × ℕ × Option ℕ × Option ℕ)
  | _, _, .nil => []
  | par, gpar, .leaf idx s e _ _ => [(idx, s, e, par, gpar)]
  | par, gpar, .node idx _ _ _ _ _ l r => l.leaves (some idx) par ++ r.leaves (some idx) par

variable {pos : α → Point K d} {items : List α} {present : List Bool}

theorem orthAt_eq {t : BT K d} (h : Good pos items present t) (q : Box K d) :
    orthAt pos items present q t =
      (live items present t.start t.stop).filter fun x => itemInBox q (pos x) := by
  have hex : ∀ (b : Box K d) (L : List α), KdTree.boxCompare q b = .excl → (∀ x ∈ L, b.Mem (pos x)) →
      L.filter (fun x => itemInBox q (pos x)) = [] := by
    intro b L hb hL
    rw [List.filter_eq_nil_iff]
    intro x hx hq
    obtain ⟨i, hi⟩ := KdTree.boxCompare_excl hb
    have h1 := (itemInBox_iff q _).1 hq i
    have h2 := hL x hx i
    rcases hi with hi | hi
    · exact absurd (h2.1.trans h1.2) (not_le.2 hi)
    · exact absurd (h1.1.trans h2.2) (not_le.2 hi)
  have hin : ∀ (b : Box K d) (L : List α), KdTree.boxCompare q b = .incl → (∀ x ∈ L, b.Mem (pos x)) →
      L = L.filter fun x => itemInBox q (pos x) := by
    intro b L hb hL
    symm
    rw [List.filter_eq_self]
    intro x hx
    refine (itemInBox_iff q _).2 fun i => ?_
    have h1 := KdTree.boxCompare_incl hb i
    have h2 := hL x hx i
    exact ⟨h1.2.trans h2.1, h2.2.trans h1.1⟩
  induction t with
  | nil => exact absurd h (by simp [Good])
  | leaf idx s e cnt b =>
    simp only [orthAt, BT.start, BT.stop]
    cases hb : KdTree.boxCompare q b with
    | excl => exact (hex b _ hb h.2.2.2).symm
    | incl => exact hin b _ hb h.2.2.2
    | overlap => rfl
  | node idx s e dim val b l r ihl ihr =>
    simp only [orthAt, BT.start, BT.stop]
    cases hb : KdTree.boxCompare q b with
    | excl => exact (hex b _ hb h.1).symm
    | incl => exact hin b _ hb h.1
    | overlap =>
      simp only [h.2.1.not_nil, Bool.false_and, Bool.false_eq_true, if_false]
      rw [ihl h.2.1, ihr h.2.2.1, ← List.filter_append, ← h.node_live]

theorem mem_live_iff (x : α) (s e : ℕ) : x ∈ live items present s e ↔ (x, true) ∈ slots items present s e := by
  unfold live
  simp

theorem slots_any (p : Point K d) (s e : ℕ) :
    ((slots items present s e).any fun x => x.2 && decide (pos x.1 = p)) = true ↔
      ∃ x ∈ live items present s e, pos x = p := by
  rw [List.any_eq_true]
  constructor
  · rintro ⟨⟨a, b⟩, hx, hb⟩
    rw [Bool.and_eq_true, decide_eq_true_iff] at hb
    obtain ⟨h1, h2⟩ := hb
    simp only at h1 h2
    subst h1
    exact ⟨a, (mem_live_iff _ _ _).2 hx, h2⟩
  · rintro ⟨x, hx, hp⟩
    exact ⟨(x, true), (mem_live_iff _ _ _).1 hx, by simp [hp]⟩

theorem containsAt_eq {t : BT K d} (h : Good pos items present t) (hs : Searchable pos items present t)
    (p : Point K d) :
    ∃ r, containsAt pos items present p t = .ok r ∧
      (r = true ↔ ∃ x ∈ live items present t.start t.stop, pos x = p) := by
  induction t with
  | nil => exact absurd h (by simp [Good])
  | leaf idx s e cnt b => exact ⟨_, rfl, slots_any p s e⟩
  | node idx s e dim val b l r ihl ihr =>
    simp only [containsAt, h.2.1.not_nil, Bool.false_and, Bool.false_eq_true, if_false]
    have hn := h.node_live
    simp only [BT.start, BT.stop]
    rw [hn]
    by_cases hp : p dim < val
    · rw [if_pos hp]
      obtain ⟨r, h1, h2⟩ := ihl h.2.1 hs.2.2.1
      refine ⟨r, h1, h2.trans ?_⟩
      simp only [List.mem_append]
      constructor
      · rintro ⟨x, hx, e⟩
        exact ⟨x, Or.inl hx, e⟩
      · rintro ⟨x, hx | hx, e⟩
        · exact ⟨x, hx, e⟩
        · have := hs.2.1 x hx
          rw [e] at this
          exact absurd hp (not_lt.2 this)
    · rw [if_neg hp]
      obtain ⟨r, h1, h2⟩ := ihr h.2.2.1 hs.2.2.2
      refine ⟨r, h1, h2.trans ?_⟩
      simp only [List.mem_append]
      constructor
      · rintro ⟨x, hx, e⟩
        exact ⟨x, Or.inr hx, e⟩
      · rintro ⟨x, hx | hx, e⟩
        · have := hs.1 x hx
          rw [e] at this
          exact absurd this hp
        · exact ⟨x, hx, e⟩

/-- What `contains` answers never depends on the invariants in one direction: a positive answer is right. -/
theorem containsAt_sound {t : BT K d} (h : Good pos items present t) {p : Point K d}
    (hc : containsAt pos items present p t = .ok true) :
    ∃ x ∈ live items present t.start t.stop, pos x = p := by
  induction t with
  | nil => exact absurd h (by simp [Good])
  | leaf idx s e cnt b =>
    simp only [containsAt, Except.ok.injEq] at hc
    exact (slots_any p s e).1 hc
  | node idx s e dim val b l r ihl ihr =>
    simp only [containsAt, h.2.1.not_nil, Bool.false_and, Bool.false_eq_true, if_false] at hc
    have hn := h.node_live
    simp only [BT.start, BT.stop]
    rw [hn]
    split at hc
    · obtain ⟨x, hx, e⟩ := ihl h.2.1 hc
      exact ⟨x, List.mem_append_left _ hx, e⟩
    · obtain ⟨x, hx, e⟩ := ihr h.2.2.1 hc
      exact ⟨x, List.mem_append_right _ hx, e⟩

/-- `find` answers like `contains`. -/
theorem findAt_contains {t : BT K d} (h : Good pos items present t) (p : Point K d)
    (par gpar : Option ℕ) :
    ∃ r, findAt pos items present p par gpar t = .ok r ∧
      containsAt pos items present p t = .ok r.isSome := by
  induction t generalizing par gpar with
  | nil => exact absurd h (by simp [Good])
  | leaf idx s e cnt b =>
    refine ⟨_, rfl, ?_⟩
    simp only [containsAt, findInLeaf, Option.isSome_map, List.findIdx?_isSome]
  | node idx s e dim val b l r ihl ihr =>
    simp only [findAt, containsAt, h.2.1.not_nil, Bool.false_and, Bool.false_eq_true, if_false]
    split
    · exact ihl h.2.1 _ _
    · exact ihr h.2.2.1 _ _

/-- What `find` returns is a leaf of the tree and a present item at the position asked for. -/
theorem findAt_spec {t : BT K d} (h : Good pos items present t) {p : Point K d}
    {par gpar : Option ℕ} {f : Found}
    (hf : findAt pos items present p par gpar t = .ok (some f)) :
    ∃ s e x, (f.idx, s, e, f.parent, f.gparent) ∈ t.leaves par gpar ∧ s + f.point < e ∧
      items[s + f.point]? = some x ∧ present[s + f.point]? = some true ∧ pos x = p := by
  induction t generalizing par gpar with
  | nil => exact absurd h (by simp [Good])
  | leaf idx s e cnt b =>
    simp only [findAt, Except.ok.injEq, Option.map_eq_some_iff] at hf
    obtain ⟨j, hj, rfl⟩ := hf
    unfold findInLeaf at hj
    rw [List.findIdx?_eq_some_iff_getElem] at hj
    obtain ⟨hlt, hx, _⟩ := hj
    have hje : j < e - s := by
      have : (slots items present s e).length ≤ e - s := by
        unfold slots
        rw [List.length_take]
        exact Nat.min_le_left _ _
      omega
    have hg := slots_getElem? items present s e j hje
    rw [List.getElem?_eq_getElem hlt, zip_getElem?] at hg
    cases h1 : items[s + j]? with
    | none => simp [h1] at hg
    | some a =>
      cases h2 : present[s + j]? with
      | none => simp [h1, h2] at hg
      | some b' =>
        simp only [h1, h2, Option.bind_some, Option.map_some, Option.some.injEq] at hg
        rw [hg] at hx
        simp only [Bool.and_eq_true, decide_eq_true_eq] at hx
        exact ⟨s, e, a, by simp [BT.leaves], (by
          show s + j < e
          omega), h1, by rw [h2, hx.1], hx.2⟩
  | node idx s e dim val b l r ihl ihr =>
    simp only [findAt, h.2.1.not_nil, Bool.false_and, Bool.false_eq_true, if_false] at hf
    split at hf
    · obtain ⟨s, e, x, h1, h2⟩ := ihl h.2.1 hf
      exact ⟨s, e, x, by simp [BT.leaves, h1], h2⟩
    · obtain ⟨s, e, x, h1, h2⟩ := ihr h.2.2.1 hf
      exact ⟨s, e, x, by simp [BT.leaves, h1], h2⟩

end

end Verif.BatchKd
