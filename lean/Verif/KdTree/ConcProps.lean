import Verif.KdTree.ConcLemmas

set_option linter.unusedSectionVars false
set_option linter.unusedVariables false

/-!
Property C86: the tree that the construction leaves in memory, for every schedule.
-/

namespace Verif.KdTree

open Verif.ForkJoin

variable {α K : Type} {d : ℕ}

/-- Specification: the nodes that can be reached from the root along the pointers `left` and `right`. -/
inductive Reach (s : KMem α K d) (root : NRec K d) : NRec K d → Prop
  | root : Reach s root root
  | left {r c : NRec K d} {i : ℕ} : Reach s root r → r.left = some i → s (.node i) = some c → Reach s root c
  | right {r c : NRec K d} {i : ℕ} : Reach s root r → r.right = some i → s (.node i) = some c → Reach s root c

/-- Specification of one node of a tree over `N` items: the box is the exact bounding box of the items in the slice; a node without
children has at most `leafSize` items; otherwise both children are in the node array, each is the `sib` of the other, and their
slices divide the slice of the node. -/
def NodeOk (pos : α → Point K d) [LinearOrder K] (leafSize N : ℕ) (s : KMem α K d) (r : NRec K d) : Prop :=
  ∃ l, readItems s r.off r.len = some l ∧ l ≠ [] ∧ r.box.Tight pos l ∧
    ((r.left = none ∧ r.right = none ∧ r.len ≤ leafSize) ∨
      ∃ (i j : ℕ) (nl nr : NRec K d), r.left = some i ∧ r.right = some j ∧ i ≠ j ∧ i < 2 * N - 1 ∧ j < 2 * N - 1 ∧
        s (.node i) = some nl ∧ s (.node j) = some nr ∧ nl.sib = some j ∧ nr.sib = some i ∧ nl.off = r.off ∧
        nr.off = r.off + nl.len ∧ r.len = nl.len + nr.len ∧ leafSize < r.len)

section
variable [Field K] [LinearOrder K]

theorem seq_fillP {items : List α} {i n : ℕ} {s : KMem α K d} (h : i + n = items.length)
    (hs : ∀ j < i, s (.item j) = items[j]?) :
    ∃ s', FJ.seq (fillP items i n) s = .ok (none, s') ∧ readItems s' 0 items.length = some items := by
  induction n generalizing i s with
  | zero => exact ⟨s, rfl, readItems_iff.mpr ⟨rfl, fun j hj => by rw [Nat.zero_add]; exact hs j (by omega)⟩⟩
  | succ n ih =>
    unfold fillP
    rw [seq_aItem (by omega)]
    refine ih (by omega) fun j hj => ?_
    by_cases hji : j = i
    · subst hji
      rw [Function.update_self]
    · rw [Function.update_of_ne (by simpa using hji)]
      exact hs j (by omega)

theorem rf_fillP {items : List α} {i n : ℕ} : FJ.rf (fillP items i n : KProg α K d) (FJ.LocalTo Set.univ) fun _ => True := by
  induction n generalizing i with
  | zero => trivial
  | succ n ih => exact rf_thenP (local_aItem trivial) ih

theorem rf_buildP {w bs : ℕ} (hb : 0 < bs) {pos : α → Point K d} {leafSize : ℕ} (hls : 1 ≤ leafSize) {parallel : Bool}
    {items : List α} : FJ.rf (buildP w bs pos leafSize parallel items) (FJ.LocalTo Set.univ) fun _ => True := by
  unfold buildP
  refine FJ.rf_bind (P := fun _ => True) ?_ fun _ _ => FJ.rf_mono (rf_constructP hb hls) fun f hf => hf.mono (Set.subset_univ _)
  split
  · refine FJ.rf_parFor (S := fun i => {.item i}) (fun i h1 h2 => ?_) ?_ fun _ _ _ => Set.subset_univ _
    · exact rf_thenP (local_aItem (by simp)) trivial
    · intro i j hij l hl hl'
      simp only [Set.mem_singleton_iff] at hl hl'
      subst hl
      injection hl' with h
      exact hij h
  · exact rf_fillP

variable [IsStrictOrderedRing K]

/-- C86. For every schedule of the parallel loops and branches, the construction over a non-empty item list returns without an
access outside the arrays or to unwritten memory, and the root and the memory it leaves are the tree of C01: the item array is a
permutation of the items, and following the pointers gives the boxes, slices and siblings of that tree. The tree does not depend on
the schedule. -/
theorem c86_build (w bs : ℕ) (hw : 0 < w) (hb : 0 < bs) (hd : 0 < d) (pos : α → Point K d) (leafSize : ℕ) (hls : 1 ≤ leafSize)
    (parallel : Bool) (items : List α) (h : items ≠ []) :
    ∃ (t : Tree α K d) (root : NRec K d) (mem : KMem α K d), t.items.Perm items ∧ Sound pos leafSize t ∧ Separated pos t ∧
      Rep mem 0 root t ∧ root.sib = none ∧ root.off = 0 ∧ root.len = items.length ∧
      ∀ sched, buildC sched w bs pos leafSize parallel items = .ok (some root, mem) := by
  obtain ⟨t, ht, h1, h2, h3⟩ := c01_build w bs hw hb hd pos leafSize hls parallel items h
  have hfill : ∃ s1, FJ.seq ((if parallel then FJ.parFor none (fun i => thenP (aItem items.length i items[i]?) (.ret none)) 0
      items.length else fillP items 0 items.length) : KProg α K d) (mem0 items.length) = .ok (none, s1) ∧
      readItems s1 0 items.length = some items := by
    cases parallel with
    | true =>
      obtain ⟨s1, e1, r1⟩ := seq_items (L := items) (N := items.length) (off := 0) (s := (mem0 items.length : KMem α K d)) (by omega)
      exact ⟨s1, e1, r1⟩
    | false => exact seq_fillP (by omega) fun j hj => absurd hj (by omega)
  obtain ⟨s1, e1, r1⟩ := hfill
  obtain ⟨root, mem, e2, a1, a2, a3, a4⟩ := seq_constructP (N := items.length) (base := 0) hw hb hd hls h (Nat.lt_succ_self _) r1
    (by omega) (by omega) ht
  refine ⟨t, root, mem, h1, h2, h3, a4, a1, a2, a3, fun sched => FJ.run_seq sched (rf_buildP hb hls) ?_ 0⟩
  unfold buildP
  rw [FJ.seq_bind]
  simp only [e1, Except.bind]
  exact e2

/-- C86, the same in terms of the pointers: the item array is a permutation of the input, the root covers it, and every node that
can be reached from the root is as `NodeOk` says. -/
theorem c86_nodes (w bs : ℕ) (hw : 0 < w) (hb : 0 < bs) (hd : 0 < d) (pos : α → Point K d) (leafSize : ℕ) (hls : 1 ≤ leafSize)
    (parallel : Bool) (items : List α) (h : items ≠ []) (sched : ℕ → List Bool) :
    ∃ (root : NRec K d) (mem : KMem α K d) (l : List α), buildC sched w bs pos leafSize parallel items = .ok (some root, mem) ∧
      readItems mem 0 items.length = some l ∧ l.Perm items ∧ root.off = 0 ∧ root.len = items.length ∧ root.sib = none ∧
      ∀ r, Reach mem root r → NodeOk pos leafSize items.length mem r := by
  obtain ⟨t, root, mem, h1, h2, _, h3, h4, h5, h6, h7⟩ := c86_build w bs hw hb hd pos leafSize hls parallel items h
  refine ⟨root, mem, t.items, h7 sched, ?_, h1, h5, h6, h4, fun r hr => ?_⟩
  · have := rep_read h3
    rwa [h5, h6] at this
  · obtain ⟨base, t', k1, k2, k3⟩ : ∃ (base : ℕ) (t' : Tree α K d), Rep mem base r t' ∧ Sound pos leafSize t' ∧
        base + 2 * t'.size ≤ 2 * items.length := by
      have step : ∀ (r : NRec K d) (base : ℕ) (t' : Tree α K d), Rep mem base r t' → Sound pos leafSize t' →
          base + 2 * t'.size ≤ 2 * items.length → ∀ (c : NRec K d) (i : ℕ), (r.left = some i ∨ r.right = some i) →
          mem (.node i) = some c → ∃ (base : ℕ) (t' : Tree α K d), Rep mem base c t' ∧ Sound pos leafSize t' ∧
            base + 2 * t'.size ≤ 2 * items.length := by
        intro r base t' q1 q2 q3 c i hi hc
        cases t' with
        | leaf b l =>
          rw [q1.2.1, q1.2.2.1] at hi
          rcases hi with hi | hi <;> cases hi
        | node b tl tr =>
          have hs : (Tree.node b tl tr).size = tl.size + tr.size := by simp [Tree.size, Tree.items]
          have z := ne_size (ne_of_sound q2.2.2.1)
          have z' := ne_size (ne_of_sound q2.2.2.2)
          obtain ⟨_, g2, g3, nl, nr, g4, g5, _, _, _, _, _, g6, g7⟩ := q1
          rcases hi with hi | hi
          · rw [g2] at hi
            cases hi
            rw [g4] at hc
            cases hc
            exact ⟨_, tl, g6, q2.2.2.1, by omega⟩
          · rw [g3] at hi
            cases hi
            rw [g5] at hc
            cases hc
            exact ⟨_, tr, g7, q2.2.2.2, by omega⟩
      induction hr with
      | root => exact ⟨0, t, h3, h2, by rw [rep_size h3, h6]; omega⟩
      | left _ hl hc ih =>
        obtain ⟨b, t', q1, q2, q3⟩ := ih
        exact step _ b t' q1 q2 q3 _ _ (.inl hl) hc
      | right _ hl hc ih =>
        obtain ⟨b, t', q1, q2, q3⟩ := ih
        exact step _ b t' q1 q2 q3 _ _ (.inr hl) hc
    refine ⟨t'.items, rep_read k1, ?_, ?_, ?_⟩
    · have := ne_size (ne_of_sound k2)
      exact List.ne_nil_of_length_pos this
    · cases t' with
      | leaf b l => rw [k1.1]; exact k2.2.2
      | node b tl tr => rw [k1.1]; exact k2.2.1
    · have hsz := rep_size k1
      cases t' with
      | leaf b l =>
        refine .inl ⟨k1.2.1, k1.2.2.1, ?_⟩
        rw [← hsz]
        exact k2.2.1
      | node b tl tr =>
        have hs : (Tree.node b tl tr).size = tl.size + tr.size := by simp [Tree.size, Tree.items]
        have z := ne_size (ne_of_sound k2.2.2.1)
        have z' := ne_size (ne_of_sound k2.2.2.2)
        obtain ⟨_, g2, g3, nl, nr, g4, g5, g6, g7, g8, g9, g10, _, _⟩ := k1
        exact .inr ⟨_, _, nl, nr, g2, g3, by omega, by omega, by omega, g4, g5, g6, g7, g8, g9, g10, by rw [← hsz]; exact k2.1⟩

/-- Non-vacuity of `c86_build` and `c86_nodes`: three planar points, leaf size 1. -/
example : ∃ (root : NRec ℚ 2) (mem : KMem (Point ℚ 2) ℚ 2), (∀ sched, buildC sched 4 2048 (id : Point ℚ 2 → Point ℚ 2) 1 true
    [![0, 0], ![1, 2], ![1, 2]] = .ok (some root, mem)) ∧ root.len = 3 := by
  obtain ⟨t, root, mem, _, _, _, _, _, _, h, h'⟩ := c86_build 4 2048 (by decide) (by decide) (by decide)
    (id : Point ℚ 2 → Point ℚ 2) 1 (le_refl _) true [![0, 0], ![1, 2], ![1, 2]] (by simp)
  exact ⟨root, mem, h', h⟩

/-- The theorem also covers inputs above the size from which the construction is parallel. -/
example (sched : ℕ → List Bool) : ∃ (root : NRec ℚ 1) (mem : KMem ℕ ℚ 1) (l : List ℕ),
    buildC sched 4 2048 (fun n : ℕ => (fun _ => (n : ℚ) : Point ℚ 1)) 16 true (List.range 5000) = .ok (some root, mem) ∧
    readItems mem 0 5000 = some l ∧ l.Perm (List.range 5000) ∧ root.left ≠ none := by
  obtain ⟨root, mem, l, h1, h2, h3, h4, h5, h6, h7⟩ := c86_nodes 4 2048 (by decide) (by decide) (by decide)
    (fun n : ℕ => (fun _ => (n : ℚ) : Point ℚ 1)) 16 (by decide) true (List.range 5000) (by simp) sched
  rw [List.length_range] at h2 h5
  refine ⟨root, mem, l, h1, h2, h3, fun hn => ?_⟩
  obtain ⟨_, _, _, _, ⟨_, _, h⟩ | ⟨i, _, _, _, h, _⟩⟩ := h7 root .root
  · omega
  · rw [hn] at h; cases h

end

end Verif.KdTree
