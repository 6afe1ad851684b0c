import Verif.OctTree.Lemmas

set_option linter.unusedSectionVars false
set_option linter.unusedVariables false

/-! Lemmas on the construction of the oct-tree. -/

namespace Verif.OctTree

variable {V : Type} {d : ℕ} {pos : V → Fin d → ℝ}

/-- The leaves. -/
def OT.leaves : OT V d → List (List V)
  | .leaf P _ _ => [P]
  | .node L R _ _ => L.leaves ++ R.leaves

theorem foldl_min (f : V → ℝ) : ∀ (l : List V) (x : ℝ),
    l.foldl (fun x v => min x (f v)) x ≤ x ∧ (∀ v ∈ l, l.foldl (fun x v => min x (f v)) x ≤ f v) ∧
    ∀ c, c ≤ x → (∀ v ∈ l, c ≤ f v) → c ≤ l.foldl (fun x v => min x (f v)) x
  | [], x => ⟨le_rfl, by simp, fun c h _ => h⟩
  | a :: l, x => by
    obtain ⟨h1, h2, h3⟩ := foldl_min f l (min x (f a))
    rw [List.foldl_cons]
    refine ⟨h1.trans (min_le_left _ _), ?_, fun c hc h => h3 c (le_min hc (h a (by simp))) fun v hv => h v (by simp [hv])⟩
    intro v hv
    rcases List.mem_cons.mp hv with rfl | hv
    · exact h1.trans (min_le_right _ _)
    · exact h2 v hv

theorem foldl_max (f : V → ℝ) : ∀ (l : List V) (x : ℝ),
    x ≤ l.foldl (fun x v => max x (f v)) x ∧ (∀ v ∈ l, f v ≤ l.foldl (fun x v => max x (f v)) x) ∧
    ∀ c, x ≤ c → (∀ v ∈ l, f v ≤ c) → l.foldl (fun x v => max x (f v)) x ≤ c
  | [], x => ⟨le_rfl, by simp, fun c h _ => h⟩
  | a :: l, x => by
    obtain ⟨h1, h2, h3⟩ := foldl_max f l (max x (f a))
    rw [List.foldl_cons]
    refine ⟨(le_max_left _ _).trans h1, ?_, fun c hc h => h3 c (max_le hc (h a (by simp))) fun v hv => h v (by simp [hv])⟩
    intro v hv
    rcases List.mem_cons.mp hv with rfl | hv
    · exact (le_max_right _ _).trans h1
    · exact h2 v hv

theorem newLeaf_ok [DecidableEq V] {P : List V} (h : P ≠ []) :
    ∃ lo hi, newLeaf pos P = .ok (.leaf P lo hi) ∧ BoxOk pos (.leaf P lo hi) := by
  cases P with
  | nil => exact absurd rfl h
  | cons a l =>
    refine ⟨_, _, rfl, fun u hu i => ⟨?_, ?_⟩⟩
    · exact (foldl_min (fun v => pos v i) (a :: l) _).2.1 u hu
    · exact (foldl_max (fun v => pos v i) (a :: l) _).2.1 u hu

theorem newNode_ok [DecidableEq V] {L R : OT V d} (hL : BoxOk pos L) (hR : BoxOk pos R) : BoxOk pos (newNode L R) := by
  refine ⟨hL, hR, fun u hu i => ?_⟩
  rcases List.mem_append.mp hu with hu | hu
  · obtain ⟨h1, h2⟩ := hL.mem u hu i
    exact ⟨(min_le_left _ _).trans h1, h2.trans (le_max_left _ _)⟩
  · obtain ⟨h1, h2⟩ := hR.mem u hu i
    exact ⟨(min_le_right _ _).trans h1, h2.trans (le_max_right _ _)⟩

/-- Contract of `parlay::internal::binary_search`: the result is a position of the list, and for a list which has all
elements with the property before those without it, the number of those with it. -/
structure BinSearch (search : (ℕ × V → Bool) → List (ℕ × V) → ℕ) : Prop where
  le : ∀ p l, search p l ≤ l.length
  split : ∀ p l l', (∀ x ∈ l, p x = true) → (∀ x ∈ l', p x = false) → search p (l ++ l') = l.length

theorem binSearch_takeWhile : BinSearch (V := V) fun p l => (l.takeWhile p).length := by
  constructor
  · intro p l
    exact (List.takeWhile_sublist p).length_le
  · intro p l l' h h'
    rw [List.takeWhile_append_of_pos h]
    cases l' with
    | nil => simp
    | cons a l' => simp [List.takeWhile_cons, h' a (by simp)]

theorem buildRec_ok [DecidableEq V] {search : (ℕ × V → Bool) → List (ℕ × V) → ℕ} (hs : ∀ p l, search p l ≤ l.length) :
    ∀ (bit : ℕ) (Pts : List (ℕ × V)), Pts ≠ [] → ∃ T, buildRec search pos bit Pts = .ok T ∧ BoxOk pos T ∧
      T.flatten = Pts.map Prod.snd ∧ ∀ P ∈ T.leaves, P ≠ [] := by
  intro bit
  induction bit with
  | zero =>
    intro Pts hne
    unfold buildRec
    rw [if_neg (by simpa using hne), if_pos (Or.inl rfl)]
    obtain ⟨lo, hi, h1, h2⟩ := newLeaf_ok (pos := pos) (P := Pts.map Prod.snd) (by simpa using hne)
    exact ⟨_, h1, h2, rfl, by simpa [OT.leaves] using hne⟩
  | succ bit ih =>
    intro Pts hne
    unfold buildRec
    rw [if_neg (by simpa using hne)]
    by_cases hc : Pts.length < 20
    · rw [if_pos (Or.inr hc)]
      obtain ⟨lo, hi, h1, h2⟩ := newLeaf_ok (pos := pos) (P := Pts.map Prod.snd) (by simpa using hne)
      exact ⟨_, h1, h2, rfl, by simpa [OT.leaves] using hne⟩
    · rw [if_neg (by simpa using hc)]
      simp only
      set cut := search (fun x => decide (x.1 % 2 ^ (bit + 1) < 2 ^ bit)) Pts with hcut
      have hle : cut ≤ Pts.length := hs _ _
      split
      · exact ih Pts hne
      · rename_i hcc
        rw [not_or] at hcc
        obtain ⟨L, l1, l2, l3, l4⟩ := ih (Pts.take cut) (by
          intro e
          have := congrArg List.length e
          rw [List.length_take, List.length_nil] at this
          omega)
        obtain ⟨R, r1, r2, r3, r4⟩ := ih (Pts.drop cut) (by
          intro e
          have := congrArg List.length e
          rw [List.length_drop, List.length_nil] at this
          omega)
        refine ⟨newNode L R, ?_, newNode_ok l2 r2, ?_, ?_⟩
        · rw [l1]
          simp only [Except.bind]
          rw [r1]
          rfl
        · have : (newNode L R).flatten = L.flatten ++ R.flatten := rfl
          rw [this, l3, r3, ← List.map_append, List.take_append_drop]
        · intro P hP
          have : (newNode L R).leaves = L.leaves ++ R.leaves := rfl
          rw [this] at hP
          rcases List.mem_append.mp hP with hP | hP
          · exact l4 P hP
          · exact r4 P hP

/-- Leaves are small, or their vertices have the same tag. -/
theorem buildRec_leaf [DecidableEq V] {search : (ℕ × V → Bool) → List (ℕ × V) → ℕ} (hs : BinSearch search) :
    ∀ (bit : ℕ) (Pts : List (ℕ × V)) (c : ℕ), (∀ x ∈ Pts, x.1 / 2 ^ bit = c) → Pts.Pairwise (fun x y => x.1 ≤ y.1) →
      ∀ T, buildRec search pos bit Pts = .ok T → ∀ P ∈ T.leaves, P.length < 20 ∨ ∃ t, ∀ u ∈ P, (t, u) ∈ Pts := by
  intro bit
  induction bit with
  | zero =>
    intro Pts c hc hsort T hT P hP
    unfold buildRec at hT
    split at hT
    · simp at hT
    rename_i hne
    rw [if_pos (Or.inl rfl)] at hT
    obtain ⟨lo, hi, h1, h2⟩ := newLeaf_ok (pos := pos) (P := Pts.map Prod.snd) (by simpa using hne)
    rw [h1, Except.ok.injEq] at hT
    subst hT
    simp only [OT.leaves, List.mem_singleton] at hP
    subst hP
    right
    refine ⟨c, fun u hu => ?_⟩
    obtain ⟨x, hx, rfl⟩ := List.mem_map.mp hu
    have := hc x hx
    simp only [pow_zero, Nat.div_one] at this
    rw [← this]
    exact hx
  | succ bit ih =>
    intro Pts c hc hsort T hT P hP
    unfold buildRec at hT
    split at hT
    · simp at hT
    rename_i hne
    by_cases hl : Pts.length < 20
    · rw [if_pos (Or.inr hl)] at hT
      obtain ⟨lo, hi, h1, h2⟩ := newLeaf_ok (pos := pos) (P := Pts.map Prod.snd) (by simpa using hne)
      rw [h1, Except.ok.injEq] at hT
      subst hT
      simp only [OT.leaves, List.mem_singleton] at hP
      subst hP
      left
      simpa using hl
    · rw [if_neg (by simpa using hl)] at hT
      simp only at hT
      set p : ℕ × V → Bool := fun x => decide (x.1 % 2 ^ (bit + 1) < 2 ^ bit) with hp
      -- the split of the tags
      have hhalf : ∀ x ∈ Pts, (p x = true → x.1 / 2 ^ bit = 2 * c) ∧ (p x = false → x.1 / 2 ^ bit = 2 * c + 1) := by
        intro x hx
        have h1 := hc x hx
        have h2 : x.1 / 2 ^ bit / 2 = c := by rw [Nat.div_div_eq_div_mul, ← pow_succ, h1]
        have h3 : x.1 % 2 ^ (bit + 1) / 2 ^ bit = x.1 / 2 ^ bit % 2 := by
          rw [pow_succ, Nat.mod_mul_right_div_self]
        have h0 : 0 < 2 ^ bit := by positivity
        constructor
        · intro h
          simp only [hp, decide_eq_true_eq] at h
          have := Nat.div_eq_of_lt h
          omega
        · intro h
          simp only [hp, decide_eq_false_iff_not, not_lt] at h
          have := (Nat.one_le_div_iff h0).mpr h
          omega
      have hsplit : ∃ l l', Pts = l ++ l' ∧ (∀ x ∈ l, p x = true) ∧ ∀ x ∈ l', p x = false := by
        refine ⟨Pts.takeWhile p, Pts.dropWhile p, (List.takeWhile_append_dropWhile).symm, ?_, ?_⟩
        · intro x hx
          have := List.all_takeWhile (p := p) (l := Pts)
          exact List.all_eq_true.mp this x hx
        · have hsub : (Pts.dropWhile p).Sublist Pts := List.dropWhile_sublist p
          rcases e : Pts.dropWhile p with _ | ⟨a, l'⟩
          · simp
          · have ha : p a = false := by
              have := List.head_dropWhile_not p (l := Pts) (by rw [e]; simp)
              simpa [e] using this
            have hs2 : (a :: l').Pairwise fun x y => x.1 ≤ y.1 := by
              rw [← e]
              exact hsort.sublist hsub
            have hmem : ∀ x ∈ a :: l', x ∈ Pts := by
              rw [← e]
              exact fun x hx => hsub.subset hx
            intro x hx
            rcases List.mem_cons.mp hx with rfl | hx'
            · exact ha
            · by_contra hcon
              rw [Bool.not_eq_false] at hcon
              have h1 := (hhalf x (hmem x hx)).1 hcon
              have h2 := (hhalf a (hmem a (by simp))).2 ha
              have h3 := (List.pairwise_cons.mp hs2).1 x hx'
              have := Nat.div_le_div_right (c := 2 ^ bit) h3
              omega
      obtain ⟨l, l', e, hl1, hl2⟩ := hsplit
      have hcut : search p Pts = l.length := by rw [e, hs.split p l l' hl1 hl2]
      rw [hcut] at hT
      have hc1 : ∀ x ∈ l, x.1 / 2 ^ bit = 2 * c := fun x hx => (hhalf x (by rw [e]; simp [hx])).1 (hl1 x hx)
      have hc2 : ∀ x ∈ l', x.1 / 2 ^ bit = 2 * c + 1 := fun x hx => (hhalf x (by rw [e]; simp [hx])).2 (hl2 x hx)
      split at hT
      · rename_i hcc
        rcases hcc with h0 | h0
        · have : l = [] := List.length_eq_zero_iff.mp h0
          rw [this, List.nil_append] at e
          exact ih Pts _ (by rw [e]; exact hc2) hsort T hT P hP
        · have : l' = [] := by
            rw [e, List.length_append] at h0
            exact List.length_eq_zero_iff.mp (by omega)
          rw [this, List.append_nil] at e
          exact ih Pts _ (by rw [e]; exact hc1) hsort T hT P hP
      · have e1 : Pts.take l.length = l := by rw [e, List.take_left]
        have e2 : Pts.drop l.length = l' := by rw [e, List.drop_left]
        rw [e1, e2] at hT
        rw [e, List.pairwise_append] at hsort
        rcases hL : buildRec search pos bit l with er | L
        · rw [hL] at hT
          simp [Except.bind] at hT
        rcases hR : buildRec search pos bit l' with er | R
        · rw [hL] at hT
          simp only [Except.bind] at hT
          rw [hR] at hT
          simp [Except.map] at hT
        rw [hL] at hT
        simp only [Except.bind] at hT
        rw [hR] at hT
        simp only [Except.map, Except.ok.injEq] at hT
        subst hT
        have : (newNode L R).leaves = L.leaves ++ R.leaves := rfl
        rw [this] at hP
        rcases List.mem_append.mp hP with hP | hP
        · rcases ih l _ hc1 hsort.1 L hL P hP with h | ⟨t, ht⟩
          · exact Or.inl h
          · right
            exact ⟨t, fun u hu => by rw [e]; simp [ht u hu]⟩
        · rcases ih l' _ hc2 hsort.2.1 R hR P hP with h | ⟨t, ht⟩
          · exact Or.inl h
          · right
            exact ⟨t, fun u hu => by rw [e]; simp [ht u hu]⟩

/-! ### The tags -/

theorem or_fold_testBit (ip : Fin d → ℕ) (i : ℕ) : ∀ (l : List (Fin d)) (r j : ℕ),
    (l.foldl (fun r k => r ||| (((ip k >>> i) &&& 1) <<< (i * d + k.val))) r).testBit j =
      (r.testBit j || l.any fun k => decide (j = i * d + k.val) && (ip k).testBit i)
  | [], r, j => by simp
  | k :: l, r, j => by
    rw [List.foldl_cons, or_fold_testBit ip i l, List.any_cons, Nat.testBit_or, Bool.or_assoc]
    congr 2
    rw [Nat.testBit_shiftLeft]
    by_cases hj : j = i * d + k.val
    · subst hj
      simp [Nat.testBit_and, Nat.testBit_shiftRight]
    · by_cases hge : j ≥ i * d + k.val
      · have h1 : j - (i * d + k.val) ≠ 0 := by omega
        simp only [hge, decide_true, Bool.true_and, hj, decide_false, Bool.false_and]
        rw [Nat.testBit_and, Nat.testBit_one_eq_true_iff_self_eq_zero.not.mpr h1 |> Bool.eq_false_iff.mpr, Bool.and_false]
      · simp [hge, hj]

theorem interleave_testBit (ip : Fin d → ℕ) : ∀ (n j : ℕ),
    ((List.range n).foldl (fun r i => (List.finRange d).foldl
      (fun r k => r ||| (((ip k >>> i) &&& 1) <<< (i * d + k.val))) r) 0).testBit j =
      (List.range n).any fun i => (List.finRange d).any fun k => decide (j = i * d + k.val) && (ip k).testBit i := by
  intro n j
  induction n with
  | zero => simp
  | succ n ih => rw [List.range_succ, List.foldl_append, List.foldl_cons, List.foldl_nil, or_fold_testBit, ih]; simp

/-- Bit `i·d + k` of the tag is bit `i` of coordinate `k`; there are no other bits. -/
theorem interleave_bit (ip : Fin d → ℕ) (n : ℕ) (i : ℕ) (k : Fin d) :
    ((List.range n).foldl (fun r i => (List.finRange d).foldl
      (fun r k => r ||| (((ip k >>> i) &&& 1) <<< (i * d + k.val))) r) 0).testBit (i * d + k.val) =
      (decide (i < n) && (ip k).testBit i) := by
  rw [interleave_testBit, Bool.eq_iff_iff]
  simp only [List.any_eq_true, List.mem_range, List.mem_finRange, true_and, Bool.and_eq_true, decide_eq_true_eq]
  constructor
  · rintro ⟨i', hi', k', e, hb⟩
    have hk := k.isLt
    have hk' := k'.isLt
    have hd : 0 < d := by omega
    have e1 : (i * d + k.val) / d = i := by
      rw [Nat.mul_comm, Nat.mul_add_div hd, Nat.div_eq_of_lt hk, Nat.add_zero]
    have e2 : (i' * d + k'.val) / d = i' := by
      rw [Nat.mul_comm, Nat.mul_add_div hd, Nat.div_eq_of_lt hk', Nat.add_zero]
    rw [e, e2] at e1
    subst e1
    have : k = k' := Fin.ext (by omega)
    subst this
    exact ⟨hi', hb⟩
  · rintro ⟨hi, hb⟩
    exact ⟨i, hi, k, rfl, hb⟩

theorem interleave_lt (ip : Fin d → ℕ) (n : ℕ) :
    (List.range n).foldl (fun r i => (List.finRange d).foldl
      (fun r k => r ||| (((ip k >>> i) &&& 1) <<< (i * d + k.val))) r) 0 < 2 ^ (d * n) := by
  apply Nat.lt_pow_two_of_testBit
  intro j hj
  rw [interleave_testBit, Bool.eq_false_iff]
  intro h
  simp only [List.any_eq_true, List.mem_range, List.mem_finRange, true_and, Bool.and_eq_true, decide_eq_true_eq] at h
  obtain ⟨i, hi, k, e, -⟩ := h
  have hk := k.isLt
  have : (i + 1) * d ≤ n * d := Nat.mul_le_mul_right d hi
  rw [Nat.add_mul, Nat.one_mul] at this
  rw [Nat.mul_comm d n] at hj
  omega

end Verif.OctTree
