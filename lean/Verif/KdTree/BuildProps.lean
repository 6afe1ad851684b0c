import Verif.KdTree.BuildLemmas

set_option linter.unusedSectionVars false
set_option linter.unusedVariables false

/-!
Properties C01 and C02 of the kd-tree construction.
-/

namespace Verif.KdTree

variable {α K : Type} {d : ℕ}

/-- Specification for C01: every leaf holds between 1 and `leafSize` items, every internal node
holds more than `leafSize` items, and every box is the coordinate-wise minimum and maximum of the
items of its node. -/
def Sound [LinearOrder K] (pos : α → Point K d) (leafSize : ℕ) : Tree α K d → Prop
  | .leaf b items => items ≠ [] ∧ items.length ≤ leafSize ∧ b.Tight pos items
  | .node b l r => leafSize < (l.items ++ r.items).length ∧ b.Tight pos (l.items ++ r.items) ∧
      Sound pos leafSize l ∧ Sound pos leafSize r

/-- Specification: at every internal node the two children are separated by an axis-parallel
hyperplane, or all their items are at one position. -/
def Separated [LinearOrder K] (pos : α → Point K d) : Tree α K d → Prop
  | .leaf _ _ => True
  | .node _ l r => ((∃ (k : Fin d) (c : K),
        ((∀ x ∈ l.items, pos x k < c) ∧ (∀ x ∈ r.items, c ≤ pos x k)) ∨
        ((∀ x ∈ l.items, c ≤ pos x k) ∧ (∀ x ∈ r.items, pos x k < c))) ∨
      (∀ x ∈ l.items ++ r.items, ∀ y ∈ l.items ++ r.items, pos x = pos y)) ∧
      Separated pos l ∧ Separated pos r

section
variable [Field K] [LinearOrder K] [IsStrictOrderedRing K]

theorem tight_le {pos : α → Point K d} {items : List α} {b : Box K d} (h : items ≠ [])
    (ht : b.Tight pos items) (i : Fin d) : b.lo i ≤ b.hi i := by
  obtain ⟨x, hx⟩ := List.exists_mem_of_ne_nil _ h
  exact ((ht.1 x hx i).1).trans (ht.1 x hx i).2

theorem tight_perm {pos : α → Point K d} {l l' : List α} {b : Box K d} (h : l'.Perm l)
    (ht : b.Tight pos l) : b.Tight pos l' :=
  ⟨fun a ha => ht.1 a (h.mem_iff.mp ha), fun i => ⟨
    (ht.2 i).1.imp fun a ha => ⟨h.mem_iff.mpr ha.1, ha.2⟩,
    (ht.2 i).2.imp fun a ha => ⟨h.mem_iff.mpr ha.1, ha.2⟩⟩⟩

theorem construct_ok (w bs : ℕ) (hw : 0 < w) (hb : 0 < bs) (hd : 0 < d) (pos : α → Point K d)
    (leafSize : ℕ) (hls : 1 ≤ leafSize) (fuel : ℕ) (par : Bool) (items : List α) (h : items ≠ [])
    (hf : items.length < fuel) :
    ∃ t, construct w bs pos leafSize fuel par items = .ok t ∧ t.items.Perm items ∧
      Sound pos leafSize t ∧ Separated pos t := by
  induction fuel generalizing par items with
  | zero => omega
  | succ fuel ih =>
    unfold construct
    set usePar : Bool := par && decide (items.length > 2000) with hup
    obtain ⟨box, hbox, htight⟩ : ∃ box, nodeBox w pos usePar items = .ok box ∧
        box.Tight pos items := by
      cases usePar
      · exact boxSerial_ok pos items h
      · exact boxParallel_ok w hw pos items h
    simp only [hbox, bind, Except.bind, pure, Except.pure]
    by_cases hle : items.length ≤ leafSize
    · rw [if_pos hle]
      exact ⟨_, rfl, List.Perm.refl _, ⟨h, hle, htight⟩, trivial⟩
    · rw [if_neg hle]
      obtain ⟨k, hk, hwide⟩ := findWidest_ok box hd (tight_le h htight)
      simp only [hk]
      set xM := (box.hi k + box.lo k) / 2 with hxM
      obtain ⟨sp, hsp, hok⟩ : ∃ sp, nodeSplit bs (fun x => pos x k) xM usePar items = .ok sp ∧
          (SplitOk items (fun x => pos x k < xM) (fun x => xM ≤ pos x k) sp ∨
           SplitOk items (fun x => xM ≤ pos x k) (fun x => pos x k < xM) sp) := by
        cases usePar
        · obtain ⟨res, h1, h2⟩ := splitItemSerial_ok (fun x => pos x k) xM items (by omega)
          exact ⟨res, h1, Or.inl h2⟩
        · obtain ⟨res, h1, h2⟩ := splitParallel_ok bs hb (fun x => pos x k) xM items
          exact ⟨res, h1, Or.inr h2⟩
      simp only [hsp]
      set median := nodeMedian usePar items.length sp.2 with hmed
      have hperm : sp.1.Perm items := by rcases hok with h | h <;> exact h.1
      have hle2 : sp.2 ≤ items.length := by rcases hok with h | h <;> exact h.2.1
      have hlen : sp.1.length = items.length := hperm.length_eq
      have hm : 0 < median ∧ median < items.length := by
        have : median = (if sp.2 = 0 ∨ sp.2 = items.length then
          (if usePar = true then items.length / 2 else (items.length + 1) / 2) else sp.2) := hmed
        clear_value median
        split at this
        · split at this <;> omega
        · rename_i hn
          rw [not_or] at hn; omega
      have hlt : (sp.1.take median).length = median := by rw [List.length_take]; omega
      have hld : (sp.1.drop median).length = items.length - median := by rw [List.length_drop]; omega
      obtain ⟨l, hl1, hl2, hl3, hl4⟩ := ih usePar (sp.1.take median)
        (by intro h0; rw [h0] at hlt; simp at hlt; omega) (by omega)
      obtain ⟨r, hr1, hr2, hr3, hr4⟩ := ih usePar (sp.1.drop median)
        (by intro h0; rw [h0] at hld; simp at hld; omega) (by omega)
      simp only [hl1, hr1]
      have hall : (l.items ++ r.items).Perm items := by
        refine (hl2.append hr2).trans ?_
        rw [List.take_append_drop]; exact hperm
      refine ⟨_, rfl, hall, ⟨by rw [hall.length_eq]; omega, tight_perm hall htight, hl3, hr3⟩, ?_, hl4,
        hr4⟩
      by_cases hdeg : sp.2 = 0 ∨ sp.2 = items.length
      · right
        have hz : box.lo k = box.hi k := by
          by_contra hne
          have hlt' : box.lo k < box.hi k := lt_of_le_of_ne (tight_le h htight k) hne
          have h1 : box.lo k < xM := by rw [hxM]; linarith
          have h2 : xM ≤ box.hi k := by rw [hxM]; linarith
          obtain ⟨⟨a, ha, hae⟩, ⟨c, hc, hce⟩⟩ := htight.2 k
          have ha' := hperm.mem_iff.mpr ha
          have hc' := hperm.mem_iff.mpr hc
          rcases hdeg with h0 | h0
          · rcases hok with hok | hok
            · have := hok.2.2.2 a (by rw [h0]; simpa using ha')
              simp only at this
              rw [hae] at this; exact absurd h1 (not_lt.mpr this)
            · have := hok.2.2.2 c (by rw [h0]; simpa using hc')
              simp only at this
              rw [hce] at this; exact absurd this (not_lt.mpr h2)
          · rcases hok with hok | hok
            · have := hok.2.2.1 c (by rw [h0, List.take_of_length_le (by omega)]; exact hc')
              simp only at this
              rw [hce] at this; exact absurd this (not_lt.mpr h2)
            · have := hok.2.2.1 a (by rw [h0, List.take_of_length_le (by omega)]; exact ha')
              simp only at this
              rw [hae] at this; exact absurd h1 (not_lt.mpr this)
        have hpt : ∀ x ∈ l.items ++ r.items, pos x = box.lo := by
          intro x hx
          funext i
          have hxb := htight.1 x (hall.mem_iff.mp hx) i
          have := hwide i
          rw [hz] at this
          linarith [hxb.1, hxb.2]
        intro x hx y hy
        rw [hpt x hx, hpt y hy]
      · left
        have hmm : median = sp.2 := by rw [hmed, nodeMedian, if_neg hdeg]
        refine ⟨k, xM, ?_⟩
        rcases hok with hok | hok
        · left
          exact ⟨fun x hx => hok.2.2.1 x (by rw [← hmm]; exact hl2.mem_iff.mp hx),
            fun x hx => hok.2.2.2 x (by rw [← hmm]; exact hr2.mem_iff.mp hx)⟩
        · right
          exact ⟨fun x hx => hok.2.2.1 x (by rw [← hmm]; exact hl2.mem_iff.mp hx),
            fun x hx => hok.2.2.2 x (by rw [← hmm]; exact hr2.mem_iff.mp hx)⟩

/-- C01. For every dimension `d ≥ 1`, every non-empty item list, every leaf size `≥ 1`, every number
of workers and block size, and for the serial and the parallel construction: the construction
returns (no exception, no undefined access), the items in the leaves are a permutation of the
input, and all nodes are sound (leaf sizes, non-empty children, exact boxes). -/
theorem c01_build (w bs : ℕ) (hw : 0 < w) (hb : 0 < bs) (hd : 0 < d) (pos : α → Point K d)
    (leafSize : ℕ) (hls : 1 ≤ leafSize) (parallel : Bool) (items : List α) (h : items ≠ []) :
    ∃ t, build w bs pos leafSize parallel items = .ok t ∧ t.items.Perm items ∧
      Sound pos leafSize t ∧ Separated pos t :=
  construct_ok w bs hw hb hd pos leafSize hls _ parallel items h (Nat.lt_succ_self _)

/-- Non-vacuity of `c01_build`: three planar points (two of them equal), leaf size 1. -/
example : ∃ t, build 4 2048 (id : Point ℚ 2 → Point ℚ 2) 1 true
    [![0, 0], ![1, 2], ![1, 2]] = .ok t ∧
    t.items.Perm [![0, 0], ![1, 2], ![1, 2]] ∧ Sound id 1 t ∧ Separated id t :=
  c01_build 4 2048 (by decide) (by decide) (by decide) _ 1 (le_refl _) true _ (by simp)

/-- C01, precondition: on an empty input the first box computation reads `items[0]`, which is
undefined. -/
theorem c01_build_empty (w bs : ℕ) (pos : α → Point K d) (leafSize : ℕ) (parallel : Bool) :
    build w bs pos leafSize parallel [] = .error .ub := by
  cases parallel <;> rfl

/-- C01, precondition: with leaf size 0 the serial construction throws on a single item. -/
theorem c01_build_leafSize_zero (w bs : ℕ) (hd : 0 < d) (pos : α → Point K d) (a : α) :
    build w bs pos 0 false [a] = .error .throws := by
  obtain ⟨b, hb, ht⟩ := boxSerial_ok pos [a] (by simp)
  obtain ⟨k, hk, _⟩ := findWidest_ok b hd (tight_le (by simp) ht)
  simp [build, construct, nodeBox, nodeSplit, hb, bind, Except.bind, hk, splitItemSerial]

end

/-! ### C02: node storage -/

theorem slots_ok [LinearOrder K] (pos : α → Point K d) (leafSize : ℕ) (t : Tree α K d)
    (h : Sound pos leafSize t) (base : ℕ) :
    0 < t.size ∧ (slots base t).Nodup ∧
    ∀ s ∈ slots base t, base ≤ s ∧ s + 2 < base + 2 * t.size := by
  induction t generalizing base with
  | leaf b items =>
    refine ⟨?_, by simp [slots], by simp [slots]⟩
    exact List.length_pos_of_ne_nil h.1
  | node b l r ihl ihr =>
    obtain ⟨hl0, hl1, hl2⟩ := ihl h.2.2.1 (base + 1)
    obtain ⟨hr0, hr1, hr2⟩ := ihr h.2.2.2 (base + 2 * l.size)
    have hs : (Tree.node b l r).size = l.size + r.size := by
      simp [Tree.size, Tree.items]
    refine ⟨by omega, ?_, ?_⟩
    · simp only [slots, List.nodup_cons, List.mem_cons, List.mem_append, not_or]
      refine ⟨⟨by omega, ?_, ?_⟩, ⟨?_, ?_⟩, ?_⟩
      · intro hm; have := hl2 _ hm; omega
      · intro hm; have := hr2 _ hm; omega
      · intro hm; have := hl2 _ hm; omega
      · intro hm; have := hr2 _ hm; omega
      · rw [List.nodup_append]
        refine ⟨hl1, hr1, ?_⟩
        intro a ha c hc
        have := hl2 _ ha
        have := hr2 _ hc
        omega
    · intro s hm
      simp only [slots, List.mem_cons, List.mem_append] at hm
      rcases hm with rfl | rfl | hm | hm
      · omega
      · omega
      · have := hl2 _ hm; omega
      · have := hr2 _ hm; omega

/-- C02. For every tree the construction can build over `n` items (serial or parallel, any leaf
size `≥ 1`), the slots of the node array that are written are pairwise different and lie inside the
`2n - 1` allocated slots (the root itself is stored in the tree object). -/
theorem c02_slots [Field K] [LinearOrder K] [IsStrictOrderedRing K]
    (w bs : ℕ) (hw : 0 < w) (hb : 0 < bs) (hd : 0 < d) (pos : α → Point K d)
    (leafSize : ℕ) (hls : 1 ≤ leafSize) (parallel : Bool) (items : List α) (h : items ≠ [])
    (t : Tree α K d) (ht : build w bs pos leafSize parallel items = .ok t) :
    (slots 0 t).Nodup ∧ ∀ s ∈ slots 0 t, s < 2 * items.length - 1 := by
  obtain ⟨t', h1, h2, h3, _⟩ := c01_build w bs hw hb hd pos leafSize hls parallel items h
  rw [h1] at ht
  cases ht
  obtain ⟨_, h5, h6⟩ := slots_ok pos leafSize t h3 0
  refine ⟨h5, fun s hs => ?_⟩
  have := h6 s hs
  have hl : t.size = items.length := h2.length_eq
  omega

/-- Non-vacuity of `c02_slots`: the tree over three one-dimensional items. -/
example : ∃ t, build 1 1 (fun (x : ℚ) (_ : Fin 1) => x) 1 false [1, 2, 4] = .ok t ∧
    slots 0 t ≠ [] := by
  obtain ⟨t, h1, h2, h3, _⟩ := c01_build 1 1 (by decide) (by decide) (by decide)
    (fun (x : ℚ) (_ : Fin 1) => x) 1 (le_refl _) false [1, 2, 4] (by simp)
  refine ⟨t, h1, ?_⟩
  cases t with
  | leaf b items =>
    have := h2.length_eq
    have := h3.2.1
    simp [Tree.items] at *
    omega
  | node b l r => simp [slots]

end Verif.KdTree
