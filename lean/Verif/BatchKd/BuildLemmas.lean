import Verif.BatchKd.TreeLemmas

set_option linter.unusedSectionVars false
set_option linter.unusedVariables false

/-! Building the batch kd-tree. -/

namespace Verif.BatchKd

variable {α K : Type} {d : ℕ}

section
variable [Field K] [LinearOrder K]

theorem leafBox_mem (pos : α → Point K d) (first : Point K d) (L : List α) :
    ∀ x ∈ L, (leafBox pos first L).Mem (pos x) := by
  have key : ∀ (M : List α) (b : Box K d),
      (∀ i, (M.foldl (fun b x => joinBox b (pointBox (pos x))) b).lo i ≤ b.lo i ∧
        b.hi i ≤ (M.foldl (fun b x => joinBox b (pointBox (pos x))) b).hi i) ∧
      ∀ x ∈ M, (M.foldl (fun b x => joinBox b (pointBox (pos x))) b).Mem (pos x) := by
    intro M
    induction M with
    | nil => exact fun b => ⟨fun i => ⟨le_rfl, le_rfl⟩, by simp⟩
    | cons y M ih =>
      intro b
      rw [List.foldl_cons]
      obtain ⟨h1, h2⟩ := ih (joinBox b (pointBox (pos y)))
      refine ⟨fun i => ⟨(h1 i).1.trans (min_le_left _ _), (le_max_left _ _).trans (h1 i).2⟩, ?_⟩
      intro x hx
      rcases List.mem_cons.1 hx with rfl | hx
      · exact fun i => ⟨(h1 i).1.trans (min_le_right _ _), (le_max_right _ _).trans (h1 i).2⟩
      · exact h2 x hx
  exact (key L _).2

theorem joinBox_left {a b : Box K d} {p : Point K d} (h : a.Mem p) : (joinBox a b).Mem p :=
  fun i => ⟨(min_le_left _ _).trans (h i).1, (h i).2.trans (le_max_left _ _)⟩

theorem joinBox_right {a b : Box K d} {p : Point K d} (h : b.Mem p) : (joinBox a b).Mem p :=
  fun i => ⟨(min_le_right _ _).trans (h i).1, (h i).2.trans (le_max_right _ _)⟩

/-- What the builds need from a partition: it rearranges, and the left side is not larger than the list. -/
structure SplitOK (c : Cfg α K d) : Prop where
  perm : ∀ dim L, c.leafSize < L.length → (c.split dim L).1.Perm L
  le : ∀ dim L, c.leafSize < L.length → (c.split dim L).2.2 ≤ L.length

theorem live_of_slots {items : List α} {present : List Bool} {s e : ℕ} {out : List α}
    (h : slots items present s e = out.map fun x => (x, true)) : live items present s e = out := by
  unfold live
  rw [h, List.filter_eq_self.2 (by simp), List.map_map]
  simp [Function.comp_def]

theorem live_self (items : List α) (present : List Bool) (s : ℕ) : live items present s s = [] := by
  simp [live, slots]

variable {pos : α → Point K d} {c : Cfg α K d} {stale : Point K d}

/-- Rearrangement and slice of a build. -/
theorem buildRec_shape (hc : SplitOK c) : ∀ {fuel idx off : ℕ} {dim : Fin d} {L : List α}
    {t : BT K d} {out : List α}, buildRec c pos stale fuel idx off dim L = .ok (t, out) →
      out.Perm L ∧ t.start = off ∧ t.stop = off + L.length := by
  intro fuel
  induction fuel with
  | zero => intro idx off dim L t out h; cases h
  | succ fuel ih =>
    intro idx off dim L t out h
    rw [buildRec] at h
    split at h
    · simp only [Except.ok.injEq, Prod.mk.injEq] at h
      obtain ⟨rfl, rfl⟩ := h
      exact ⟨List.Perm.refl _, rfl, rfl⟩
    · rename_i hn
      rw [not_le] at hn
      simp only at h
      split at h
      · cases h
      · cases h1 : buildRec c pos stale fuel (c.kids idx (c.split dim L).2.2).1 off (nextDim dim)
            ((c.split dim L).1.take (c.split dim L).2.2) with
        | error e => rw [h1] at h; cases h
        | ok a =>
          cases h2 : buildRec c pos stale fuel (c.kids idx (c.split dim L).2.2).2
            (off + (c.split dim L).2.2) (nextDim dim) ((c.split dim L).1.drop (c.split dim L).2.2) with
          | error e => rw [h1] at h; simp only [Except.bind, h2, Except.map] at h; cases h
          | ok b =>
            rw [h1] at h
            simp only [Except.bind, h2, Except.map, Except.ok.injEq, Prod.mk.injEq] at h
            obtain ⟨rfl, rfl⟩ := h
            obtain ⟨p1, _, _⟩ := ih (t := a.1) (out := a.2) h1
            obtain ⟨p2, _, _⟩ := ih (t := b.1) (out := b.2) h2
            refine ⟨?_, rfl, rfl⟩
            have := (p1.append p2).trans (by rw [List.take_append_drop])
            exact this.trans (hc.perm dim L hn)

/-- A successful build at a node: both halves were built. -/
theorem buildRec_node {fuel idx off : ℕ} {dim : Fin d} {L : List α}
    {t : BT K d} {out : List α} (hn : c.leafSize < L.length)
    (h : buildRec c pos stale (fuel + 1) idx off dim L = .ok (t, out)) :
    (c.split dim L).2.2 ≠ 0 ∧ ∃ l o1 r o2,
      buildRec c pos stale fuel (c.kids idx (c.split dim L).2.2).1 off (nextDim dim)
        ((c.split dim L).1.take (c.split dim L).2.2) = .ok (l, o1) ∧
      buildRec c pos stale fuel (c.kids idx (c.split dim L).2.2).2 (off + (c.split dim L).2.2)
        (nextDim dim) ((c.split dim L).1.drop (c.split dim L).2.2) = .ok (r, o2) ∧
      out = o1 ++ o2 ∧
      t = .node idx off (off + L.length) dim (c.split dim L).2.1
        (recomputeBox (pointBox (firstPos pos stale L)) l r) l r := by
  rw [buildRec, if_neg (not_le.2 hn)] at h
  simp only at h
  split at h
  · cases h
  · rename_i hm
    cases h1 : buildRec c pos stale fuel (c.kids idx (c.split dim L).2.2).1 off (nextDim dim)
        ((c.split dim L).1.take (c.split dim L).2.2) with
    | error e => rw [h1] at h; cases h
    | ok a =>
      cases h2 : buildRec c pos stale fuel (c.kids idx (c.split dim L).2.2).2
        (off + (c.split dim L).2.2) (nextDim dim) ((c.split dim L).1.drop (c.split dim L).2.2) with
      | error e => rw [h1] at h; simp only [Except.bind, h2, Except.map] at h; cases h
      | ok b =>
        rw [h1] at h
        simp only [Except.bind, h2, Except.map, Except.ok.injEq, Prod.mk.injEq] at h
        exact ⟨hm, a.1, a.2, b.1, b.2, rfl, rfl, h.2.symm, h.1.symm⟩

theorem buildRec_leaf {fuel idx off : ℕ} {dim : Fin d} {L : List α}
    {t : BT K d} {out : List α} (hn : L.length ≤ c.leafSize)
    (h : buildRec c pos stale (fuel + 1) idx off dim L = .ok (t, out)) :
    out = L ∧ t = .leaf idx off (off + L.length) L.length (leafBox pos (firstPos pos stale L) L) := by
  rw [buildRec, if_pos hn] at h
  simp only [Except.ok.injEq, Prod.mk.injEq] at h
  exact ⟨h.2.symm, h.1.symm⟩

/-- The built subtree satisfies the invariant, and items can be searched for if the splits are strict. -/
theorem buildRec_good (hc : SplitOK c) (P : List α → Prop)
    (hP : ∀ L L' : List α, L'.Subperm L → P L → P L') : ∀ {fuel idx off : ℕ} {dim : Fin d} {L : List α}
    {t : BT K d} {out : List α}, buildRec c pos stale fuel idx off dim L = .ok (t, out) →
    ∀ {items : List α} {present : List Bool}, items.length = present.length →
      off + L.length ≤ items.length →
      slots items present off (off + L.length) = out.map (fun x => (x, true)) →
      Good pos items present t ∧
      ((∀ dim L, P L → c.leafSize < L.length →
        (∀ x ∈ (c.split dim L).1.take (c.split dim L).2.2, pos x dim < (c.split dim L).2.1) ∧
        (∀ x ∈ (c.split dim L).1.drop (c.split dim L).2.2, (c.split dim L).2.1 ≤ pos x dim)) →
        P L → Searchable pos items present t) := by
  intro fuel
  induction fuel with
  | zero => intro idx off dim L t out h; cases h
  | succ fuel ih =>
    intro idx off dim L t out h items present hlen hle hsl
    by_cases hn : L.length ≤ c.leafSize
    · obtain ⟨rfl, rfl⟩ := buildRec_leaf hn h
      have hl := live_of_slots hsl
      refine ⟨⟨by omega, hle, by rw [hl], ?_⟩, fun _ _ => trivial⟩
      rw [hl]
      exact leafBox_mem pos _ out
    · rw [not_le] at hn
      obtain ⟨hm, l, o1, r, o2, h1, h2, rfl, rfl⟩ := buildRec_node hn h
      obtain ⟨p1, s1, e1⟩ := buildRec_shape hc h1
      obtain ⟨p2, s2, e2⟩ := buildRec_shape hc h2
      have hperm := hc.perm dim L hn
      have hml := hc.le dim L hn
      have hl1 : ((c.split dim L).1.take (c.split dim L).2.2).length = (c.split dim L).2.2 := by
        rw [List.length_take, hperm.length_eq]
        omega
      have hl2 : ((c.split dim L).1.drop (c.split dim L).2.2).length =
          L.length - (c.split dim L).2.2 := by
        rw [List.length_drop, hperm.length_eq]
      generalize hmm : (c.split dim L).2.2 = m at *
      rw [hl1] at e1
      rw [hl2] at e2
      have hsp := slots_append items present off (off + m) (off + L.length) (by omega) (by omega)
      rw [hsl, List.map_append] at hsp
      obtain ⟨q1, q2⟩ := List.append_inj hsp (by
        rw [List.length_map, p1.length_eq, hl1, slots_length _ _ _ _ hlen.le (by omega)]
        omega)
      have heq : off + m + (L.length - m) = off + L.length := by omega
      obtain ⟨g1, t1⟩ := ih h1 hlen (by rw [hl1]; omega) (by rw [hl1]; exact q1.symm)
      obtain ⟨g2, t2⟩ := ih h2 hlen (by rw [hl2]; omega) (by rw [hl2, heq]; exact q2.symm)
      have hll := live_of_slots hsl
      have hl1' := live_of_slots q1.symm
      have hl2' := live_of_slots q2.symm
      obtain ⟨b1, hb1, m1⟩ := g1.box
      obtain ⟨b2, hb2, m2⟩ := g2.box
      rw [s1, e1, hl1'] at m1
      rw [s2, e2, heq, hl2'] at m2
      refine ⟨⟨?_, g1, g2, by omega, by omega, by omega, hle, ?_, ?_, ?_⟩, ?_⟩
      · rw [hll]
        unfold recomputeBox
        rw [hb1, hb2]
        intro x hx
        rcases List.mem_append.1 hx with hx | hx
        · exact joinBox_left (m1 x hx)
        · exact joinBox_right (m2 x hx)
      · rw [s1]
        exact live_self _ _ _
      · rw [e1, s2]
        exact live_self _ _ _
      · rw [e2, heq]
        exact live_self _ _ _
      · intro hs hPL
        obtain ⟨hs1, hs2⟩ := hs dim L hPL hn
        rw [hmm] at hs1 hs2
        refine ⟨?_, ?_, t1 hs (hP _ _ ((List.take_sublist _ _).subperm.trans hperm.subperm) hPL),
          t2 hs (hP _ _ ((List.drop_sublist _ _).subperm.trans hperm.subperm) hPL)⟩
        · rw [s1, e1, hl1']
          exact fun x hx => hs1 x (p1.mem_iff.1 hx)
        · rw [s2, e2, heq, hl2']
          exact fun x hx => hs2 x (p2.mem_iff.1 hx)

/-- A build whose splits are never one-sided ends. -/
theorem buildRec_ok (hc : SplitOK c) (P : List α → Prop)
    (hP : ∀ L L' : List α, L'.Subperm L → P L → P L')
    (hm : ∀ dim L, P L → c.leafSize < L.length →
      0 < (c.split dim L).2.2 ∧ (c.split dim L).2.2 < L.length) :
    ∀ {fuel : ℕ} (idx off : ℕ) (dim : Fin d) (L : List α), P L → L.length < fuel →
      ∃ r, buildRec c pos stale fuel idx off dim L = .ok r := by
  intro fuel
  induction fuel with
  | zero => intro idx off dim L _ h; omega
  | succ fuel ih =>
    intro idx off dim L hPL hf
    rw [buildRec]
    by_cases hn : L.length ≤ c.leafSize
    · rw [if_pos hn]
      exact ⟨_, rfl⟩
    · rw [if_neg hn]
      rw [not_le] at hn
      obtain ⟨h1, h2⟩ := hm dim L hPL hn
      have hperm := hc.perm dim L hn
      simp only
      rw [if_neg (by omega)]
      obtain ⟨a, ha⟩ := ih (c.kids idx (c.split dim L).2.2).1 off (nextDim dim)
        ((c.split dim L).1.take (c.split dim L).2.2)
        (hP _ _ ((List.take_sublist _ _).subperm.trans hperm.subperm) hPL)
        (by rw [List.length_take, hperm.length_eq]; omega)
      obtain ⟨b, hb⟩ := ih (c.kids idx (c.split dim L).2.2).2 (off + (c.split dim L).2.2) (nextDim dim)
        ((c.split dim L).1.drop (c.split dim L).2.2)
        (hP _ _ ((List.drop_sublist _ _).subperm.trans hperm.subperm) hPL)
        (by rw [List.length_drop, hperm.length_eq]; omega)
      rw [ha]
      simp only [Except.bind, hb, Except.map]
      exact ⟨_, rfl⟩

/-! ### Places of the nodes -/

/-- Heap layout: everything below `idx` lies in the first `H` levels below it. -/
def Below (idx H j : ℕ) : Prop := ∃ k ≤ H, (j + 1) / 2 ^ k = idx + 1

theorem Below.lt {idx H j : ℕ} (h : Below idx H j) : j + 1 < (idx + 2) * 2 ^ H := by
  obtain ⟨k, hk, h⟩ := h
  have hp : 0 < 2 ^ k := Nat.two_pow_pos k
  have h1 : j + 1 < (idx + 2) * 2 ^ k := by
    rw [← Nat.div_lt_iff_lt_mul hp]
    omega
  exact h1.trans_le (Nat.mul_le_mul_left _ (Nat.pow_le_pow_right (by omega) hk))

theorem Below.child {idx H j : ℕ} (h : Below (2 * idx + 1) H j ∨ Below (2 * idx + 2) H j) :
    Below idx (H + 1) j := by
  rcases h with ⟨k, hk, h⟩ | ⟨k, hk, h⟩ <;>
  · refine ⟨k + 1, by omega, ?_⟩
    rw [pow_succ, ← Nat.div_div_eq_div_mul, h]
    omega

theorem Below.disjoint {idx H H' j : ℕ} (h1 : Below (2 * idx + 1) H j) (h2 : Below (2 * idx + 2) H' j) :
    False := by
  obtain ⟨k, _, h1⟩ := h1
  obtain ⟨k', _, h2⟩ := h2
  have aux : ∀ (a b : ℕ), a ≤ b → (j + 1) / 2 ^ b ≤ (j + 1) / 2 ^ a := fun a b h =>
    Nat.div_le_div_left (Nat.pow_le_pow_right (by omega) h) (Nat.two_pow_pos a)
  have aux2 : ∀ (a b : ℕ), a < b → (j + 1) / 2 ^ b ≤ (j + 1) / 2 ^ a / 2 := fun a b h => by
    rw [Nat.div_div_eq_div_mul, ← pow_succ]
    exact aux (a + 1) b h
  rcases lt_trichotomy k k' with h | h | h
  · have := aux2 k k' h
    omega
  · subst h
    omega
  · have := aux2 k' k h
    omega

theorem Below.ne_root {idx H : ℕ} (h : Below (2 * idx + 1) H idx ∨ Below (2 * idx + 2) H idx) :
    False := by
  rcases h with ⟨k, _, h⟩ | ⟨k, _, h⟩ <;>
  · have := Nat.div_le_self (idx + 1) (2 ^ k)
    omega

/-- The heap layout with halving splits. -/
theorem buildRec_heap (hc : SplitOK c) (hls : 1 ≤ c.leafSize)
    (hk : ∀ i m, c.kids i m = (2 * i + 1, 2 * i + 2))
    (hm : ∀ dim L, c.leafSize < L.length → (c.split dim L).2.2 = L.length / 2) :
    ∀ {fuel idx off : ℕ} {dim : Fin d} {L : List α} {t : BT K d} {out : List α} (H : ℕ),
      buildRec c pos stale fuel idx off dim L = .ok (t, out) → L.length ≤ 2 ^ H →
      (∀ j ∈ t.indices, Below idx H j) ∧ t.indices.Nodup := by
  intro fuel
  induction fuel with
  | zero => intro idx off dim L t out H h; cases h
  | succ fuel ih =>
    intro idx off dim L t out H h hH
    by_cases hn : L.length ≤ c.leafSize
    · obtain ⟨_, rfl⟩ := buildRec_leaf hn h
      simp only [BT.indices, List.mem_singleton, forall_eq, List.nodup_singleton, and_true]
      exact ⟨0, by omega, by simp⟩
    · rw [not_le] at hn
      obtain ⟨hm0, l, o1, r, o2, h1, h2, _, rfl⟩ := buildRec_node hn h
      have hperm := hc.perm dim L hn
      rw [hm dim L hn] at h1 h2
      rw [hk] at h1 h2
      obtain ⟨H, rfl⟩ : ∃ H', H = H' + 1 := by
        cases H with
        | zero => simp at hH; omega
        | succ H => exact ⟨H, rfl⟩
      rw [pow_succ] at hH
      obtain ⟨a1, a2⟩ := ih H h1 (by rw [List.length_take, hperm.length_eq]; omega)
      obtain ⟨b1, b2⟩ := ih H h2 (by rw [List.length_drop, hperm.length_eq]; omega)
      simp only [BT.indices]
      refine ⟨?_, ?_⟩
      · intro j hj
        rcases List.mem_cons.1 hj with rfl | hj
        · exact ⟨0, by omega, by simp⟩
        · rcases List.mem_append.1 hj with hj | hj
          · exact Below.child (Or.inl (a1 j hj))
          · exact Below.child (Or.inr (b1 j hj))
      · rw [List.nodup_cons, List.nodup_append]
        refine ⟨?_, a2, b2, ?_⟩
        · intro hj
          rcases List.mem_append.1 hj with hj | hj
          · exact Below.ne_root (Or.inl (a1 _ hj))
          · exact Below.ne_root (Or.inr (b1 _ hj))
        · rintro x hx y hy rfl
          exact Below.disjoint (a1 _ hx) (b1 _ hy)

/-- The layout of the spatial build: a subtree over `n` items uses the places `idx, …, idx + 2n - 2`. -/
theorem buildRec_preorder (hc : SplitOK c)
    (hk : ∀ i m, c.kids i m = (i + 1, i + 2 * m))
    (hm : ∀ dim L, c.leafSize < L.length → (c.split dim L).2.2 < L.length) :
    ∀ {fuel idx off : ℕ} {dim : Fin d} {L : List α} {t : BT K d} {out : List α},
      buildRec c pos stale fuel idx off dim L = .ok (t, out) → L ≠ [] →
      (∀ j ∈ t.indices, idx ≤ j ∧ j + 1 < idx + 2 * L.length) ∧ t.indices.Nodup := by
  intro fuel
  induction fuel with
  | zero => intro idx off dim L t out h; cases h
  | succ fuel ih =>
    intro idx off dim L t out h hL
    have hpos := List.length_pos_iff.2 hL
    by_cases hn : L.length ≤ c.leafSize
    · obtain ⟨_, rfl⟩ := buildRec_leaf hn h
      simp only [BT.indices, List.mem_singleton, forall_eq, List.nodup_singleton, and_true]
      omega
    · rw [not_le] at hn
      obtain ⟨hm0, l, o1, r, o2, h1, h2, _, rfl⟩ := buildRec_node hn h
      have hperm := hc.perm dim L hn
      have hlt := hm dim L hn
      rw [hk] at h1 h2
      have hl1 : ((c.split dim L).1.take (c.split dim L).2.2).length = (c.split dim L).2.2 := by
        rw [List.length_take, hperm.length_eq]
        omega
      have hl2 : ((c.split dim L).1.drop (c.split dim L).2.2).length =
          L.length - (c.split dim L).2.2 := by
        rw [List.length_drop, hperm.length_eq]
      obtain ⟨a1, a2⟩ := ih h1 (by rw [← List.length_pos_iff]; omega)
      obtain ⟨b1, b2⟩ := ih h2 (by rw [← List.length_pos_iff]; omega)
      rw [hl1] at a1
      rw [hl2] at b1
      simp only [BT.indices]
      refine ⟨?_, ?_⟩
      · intro j hj
        rcases List.mem_cons.1 hj with rfl | hj
        · omega
        · rcases List.mem_append.1 hj with hj | hj
          · have := a1 j hj
            omega
          · have := b1 j hj
            omega
      · rw [List.nodup_cons, List.nodup_append]
        refine ⟨?_, a2, b2, ?_⟩
        · intro hj
          rcases List.mem_append.1 hj with hj | hj
          · have := a1 _ hj
            omega
          · have := b1 _ hj
            omega
        · rintro x hx y hy rfl
          have := a1 _ hx
          have := b1 _ hy
          omega

end

end Verif.BatchKd
