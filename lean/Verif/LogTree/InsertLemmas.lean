import Verif.LogTree.MoveLemmas

set_option linter.unusedSectionVars false
set_option linter.unusedVariables false

/-!
The insertion of a batch: invariant and contents.
-/

namespace Verif.LogTree

open Verif BatchKd

variable {α K : Type} {d : ℕ} [Field K] [LinearOrder K] {pos : α → Point K d}

/-- Invariant of the structure. -/
structure LInv (pos : α → Point K d) (P : Params α K d) (s : LT α K d) : Prop where
  mask : s.mask < 2 ^ P.numTrees
  buf : Inv pos s.buf
  bufMax : s.buf.maxSize = P.B
  tr : ∀ i < P.numTrees, Inv pos (s.trees i)
  trMax : ∀ i < P.numTrees, (s.trees i).maxSize = treeSize P.log2 i
  full : ∀ i < P.numTrees, s.mask.testBit i = true → treeSize P.log2 i < 2 * (s.trees i).curSize
  empty : ∀ i < P.numTrees, s.mask.testBit i = false →
    (s.trees i).curSize = 0 ∧ (s.trees i).present = List.replicate (s.trees i).maxSize true

/-- Full trees are completely full. -/
def Exact (P : Params α K d) (s : LT α K d) : Prop :=
  ∀ i < P.numTrees, s.mask.testBit i = true → (s.trees i).curSize = treeSize P.log2 i

/-- All stored items. -/
def stored (P : Params α K d) (s : LT α K d) : Multiset α := (content s.buf : Multiset α) + total P.numTrees s.trees

/-- All trees can be searched by walking down. -/
def AllSearchable (pos : α → Point K d) (P : Params α K d) (s : LT α K d) : Prop :=
  SearchableT pos s.buf ∧ ∀ i < P.numTrees, SearchableT pos (s.trees i)

theorem inv_size_le {t : Tree α K d} (hI : Inv pos t) : t.curSize ≤ t.maxSize := by
  rw [hI.size]
  refine le_trans ?_ hI.bs
  unfold content
  rw [List.length_map]
  refine le_trans (List.length_filter_le _ _) ?_
  rw [List.length_take]
  exact Nat.min_le_left _ _

theorem plan_spec {B n b : ℕ} (hb : b ≤ B) (hB : 0 < B) : ∃ f rem use, plan B n b = (f, rem, use) ∧ rem ≤ n ∧
    (n : ℤ) - (B * f - if use = true ∧ (0 : ℤ) < f then (b : ℤ) else 0) = rem ∧ (use = true → 0 < f) ∧
    (if use = true then rem else b + rem) ≤ B ∧ n + b = B * f + (if use = true then rem else b + rem) := by
  have h1 := Nat.div_add_mod n B
  have h2 := Nat.mod_lt n hB
  have h3 := Nat.mod_le n B
  unfold plan
  split
  · refine ⟨_, _, _, rfl, by omega, ?_, fun _ => Nat.succ_pos _, by simp; omega, ?_⟩
    · have e : (if true = true ∧ (0 : ℤ) < ((n / B + 1 : ℕ) : ℤ) then (b : ℤ) else 0) = b := by
        rw [if_pos]
        refine ⟨rfl, ?_⟩
        positivity
      rw [e]
      have h1' : (B : ℤ) * (n / B : ℕ) + (n % B : ℕ) = n := by exact_mod_cast h1
      rw [Nat.cast_sub (by omega)]
      push_cast
      push_cast at h1'
      linarith
    · simp only [if_true]
      have : B * (n / B + 1) = B * (n / B) + B := by ring
      omega
  · refine ⟨_, _, _, rfl, h3, ?_, by simp, by simp; omega, by simp; omega⟩
    have h1' : (B : ℤ) * (n / B : ℕ) + (n % B : ℕ) = n := by exact_mod_cast h1
    simp only [Bool.false_eq_true, false_and, if_false]
    linarith

theorem cuts_sum (pts : List α) : ∀ (ms : List Move) (hi lo : ℤ), Cuts ms hi lo → 0 ≤ lo →
    (ms.map fun m => (movePts pts m : Multiset α)).sum =
      ((pts.drop lo.toNat).take (hi - lo).toNat : List α)
  | [], hi, lo, h, h0 => by
    have : lo = hi := h
    subst this
    simp
  | m :: ms, hi, lo, ⟨h1, h2, h3⟩, h0 => by
    have hle := h3.le.1
    rw [List.map_cons, List.sum_cons, cuts_sum pts ms m.start lo h3 h0, movePts, Multiset.coe_add, Multiset.coe_eq_coe]
    refine List.perm_append_comm.trans ?_
    have e1 : m.start.toNat = lo.toNat + (m.start - lo).toNat := by omega
    have e2 : (hi - lo).toNat = (m.start - lo).toNat + (m.stop - m.start).toNat := by omega
    rw [e1, ← List.drop_drop, e2, List.take_add]

theorem gathered_le {T : ℕ} {trees : ℕ → Tree α K d} {L : List ℕ} (hn : L.Nodup) (hL : ∀ j ∈ L, j < T) :
    ((L.flatMap fun j => content (trees j) : List α) : Multiset α) ≤ total T trees := by
  rw [flatMap_sum, ← sum_mem_list T (fun j => (content (trees j) : Multiset α)) hn hL]
  refine Finset.sum_le_sum fun i _ => ?_
  split
  · exact le_refl _
  · exact Multiset.zero_le _

theorem gathered_length {trees : ℕ → Tree α K d} {l : ℕ} : ∀ {L : List ℕ},
    (∀ j ∈ L, Inv pos (trees j) ∧ (trees j).maxSize = treeSize l j ∧ treeSize l j < 2 * (trees j).curSize) →
    (L.flatMap fun j => content (trees j)).length ≤ 2 ^ l * weight L ∧
      2 ^ l * weight L ≤ 2 * (L.flatMap fun j => content (trees j)).length ∧
      ((∀ j ∈ L, (trees j).curSize = treeSize l j) → (L.flatMap fun j => content (trees j)).length = 2 ^ l * weight L)
  | [], _ => by simp [weight]
  | j :: L, h => by
    obtain ⟨a, b, c⟩ := gathered_length (L := L) fun i hi => h i (by simp [hi])
    obtain ⟨h1, h2, h3⟩ := h j (by simp)
    have h4 := inv_size_le h1
    have h5 := h1.size
    have e : 2 ^ l * weight (j :: L) = treeSize l j + 2 ^ l * weight L := by
      rw [weight_cons, treeSize]; ring
    rw [e, List.flatMap_cons, List.length_append]
    refine ⟨by omega, by omega, fun hx => ?_⟩
    have := c fun i hi => hx i (by simp [hi])
    have := hx j (by simp)
    omega

theorem movePts_length {pts : List α} {m : Move} (h : 0 ≤ m.start ∧ m.start ≤ m.stop ∧ m.stop ≤ pts.length) :
    ((movePts pts m).length : ℤ) = m.stop - m.start := by
  unfold movePts
  rw [List.length_take, List.length_drop]
  omega

theorem movePts_sub (pts : List α) (m : Move) : (movePts pts m).Sublist pts :=
  (List.take_sublist _ _).trans (List.drop_sublist _ _)

theorem insert_spec {P : Params α K d} {Q : List α → Prop} (hs : Splits P.cs Q) (hb : Splits P.cb Q)
    (ord : List Move → List Move) (hord : ∀ l, (ord l).Perm l) {s : LT α K d} (hI : LInv pos P s) (hC : Clean s.buf)
    (pts U : List α) (hU : (U : Multiset α) = stored P s + (pts : Multiset α)) (hQ : Q U) :
    ∃ f rem use, plan P.B pts.length s.buf.curSize = (f, rem, use) ∧
      pts.length + s.buf.curSize = P.B * f + (if use = true then rem else s.buf.curSize + rem) ∧
      (2 ^ P.numTrees ≤ s.mask + f → insert pos P ord s pts = .error .throws) ∧
      (s.mask + f < 2 ^ P.numTrees → ∃ s', insert pos P ord s pts = .ok s' ∧ LInv pos P s' ∧ Clean s'.buf ∧
        s'.mask = s.mask + f ∧ s'.buf.curSize = (if use = true then rem else s.buf.curSize + rem) ∧
        stored P s' = stored P s + (pts : Multiset α) ∧ (Exact P s → Exact P s') ∧
        (Separates pos P.cs Q → Separates pos P.cb Q → AllSearchable pos P s → AllSearchable pos P s')) := by
  have hBpos : 0 < P.B := by unfold Params.B; positivity
  have hbB : s.buf.curSize ≤ P.B := by rw [← hI.bufMax]; exact inv_size_le hI.buf
  obtain ⟨f, rem, use, hp, p1, p2, p3, p4, p5⟩ := plan_spec (n := pts.length) hbB hBpos
  refine ⟨f, rem, use, hp, p5, ?_, ?_⟩
  · intro hov
    unfold insert
    simp only
    rw [if_pos]
    have h1 := simulate_overflow P.log2 (s.mask + f) s.mask s.buf.curSize use (P.numTrees + 1) P.numTrees
      ⟨[], f, pts.length, false⟩
    have h2 : (s.mask + f) % 2 ^ P.numTrees ≤ s.mask + f - 2 ^ P.numTrees := by
      rw [Nat.mod_eq_sub_mod hov]
      exact Nat.mod_le _ _
    have h3 := hI.mask
    have h4 : (((s.mask + f) % 2 ^ P.numTrees : ℕ) : ℤ) < f := by
      have : (s.mask + f) % 2 ^ P.numTrees < f := by omega
      exact_mod_cast this
    unfold simulation
    simp only [hp]
    simp only at h1
    intro h
    rw [h] at h1
    linarith
  · intro hfit
    have hw : (s.mask + f) % 2 ^ P.numTrees = s.mask + f := Nat.mod_eq_of_lt hfit
    have ho : s.mask % 2 ^ P.numTrees = s.mask := Nat.mod_eq_of_lt hI.mask
    obtain ⟨ms, m1, m2, m3, m4, m5, m6, m7⟩ := simulate_spec P.log2 (s.mask + f) s.mask s.buf.curSize hbB use
      (P.numTrees + 1) P.numTrees ⟨[], f, pts.length, false⟩ (by omega)
      (by simp only; rw [hw, ho]; push_cast; ring) (by simp only; positivity)
    have hB2 : ((P.B : ℕ) : ℤ) = 2 ^ P.log2 := by unfold Params.B; push_cast; rfl
    simp only [List.nil_append, Bool.false_or] at m1 m3 m4 m6 m7
    rw [← hB2, p2] at m3
    rw [m3] at m6
    have hfpos : (0 : ℤ) < (f : ℤ) ↔ 0 < f := by exact_mod_cast Iff.rfl
    have hused : (use && decide ((0 : ℤ) < (f : ℤ))) = use := by
      cases hu : use
      · rfl
      · simp [hfpos, p3 hu]
    rw [hused] at m4
    have hcount : (if use = true ∧ (0 : ℤ) < (f : ℤ) then 1 else 0 : ℕ) = if use = true then 1 else 0 := by
      refine if_congr ?_ rfl rfl
      exact ⟨fun h => h.1, fun h => ⟨h, hfpos.mpr (p3 h)⟩⟩
    rw [hcount] at m7
    -- the buffer
    have hbuf : ∃ bp b0, (if use = true then takeOut s.buf else .ok ([], s.buf)) = .ok (bp, b0) ∧ Inv pos b0 ∧ Clean b0 ∧
        b0.maxSize = P.B ∧ (content s.buf : Multiset α) = (content b0 : Multiset α) + (if use = true then 1 else 0) • (bp : Multiset α) ∧
        (bp : Multiset α) ≤ (content s.buf : Multiset α) ∧ bp.length = (if use = true then s.buf.curSize else 0) ∧
        b0.curSize + rem = (if use = true then rem else s.buf.curSize + rem) ∧
        (SearchableT pos s.buf → SearchableT pos b0) := by
      cases hu : use
      · exact ⟨[], s.buf, by simp, hI.buf, hC, hI.bufMax, by simp, by simp, by simp, by simp, id⟩
      · refine ⟨content s.buf, clear s.buf, by simp [takeOut_ok hI.buf], clear_inv hI.buf, fun _ => clear_present hI.buf,
          hI.bufMax, by simp [clear_content], le_refl _, by simp [hI.buf.size], by simp [clear], ?_⟩
        intro _ h
        exact absurd rfl h
    obtain ⟨bp, b0, b1, b2, b3, b4, b5, b6, b7, b8, b9⟩ := hbuf
    have hUge : ∀ A : List α, (A : Multiset α) ≤ stored P s + (pts : Multiset α) → Q A := by
      intro A hA
      refine hb.sub U A ?_ hQ
      rw [← hU] at hA
      exact Multiset.coe_le.mp hA
    have hb0le : (content b0 : Multiset α) ≤ (content s.buf : Multiset α) := by
      rw [b5]; exact Multiset.le_add_right _ _
    have hqb : Q (content b0 ++ pts.take rem) := by
      refine hUge _ ?_
      rw [← Multiset.coe_add, stored]
      refine add_le_add (le_trans hb0le (Multiset.le_add_right _ _)) ?_
      exact Multiset.coe_le.mpr (List.take_sublist _ _).subperm
    have htl : (pts.take rem).length = rem := by rw [List.length_take]; omega
    obtain ⟨buf', e1⟩ := insert_ok (pos := pos) (d0 := P.d0) hb.ok Q hb.sub hb.sides b2
      (pts := pts.take rem) (by rw [htl, b8, b4]; exact p4) hqb
    obtain ⟨i1, i2, i3, i4, i5⟩ := insert_inv hb.ok b2 b3 (by rw [htl, b8, b4]; exact p4) e1
    -- the moves
    have hcut := m6.le
    have hrem0 : (0 : ℤ) ≤ (rem : ℤ) := Int.natCast_nonneg _
    have hbits : ∀ m ∈ ms, ∀ m' ∈ ms, m.target ∉ m'.trees := by
      intro m hm m' hm' hmem
      have h1 := (m5.target m hm).2.2
      have h2 := ((m5.trees m' hm').2 _ hmem).2.1
      rw [h1] at h2
      cases h2
    have hTlt : ∀ m ∈ ms, ∀ j ∈ m.trees, j < P.numTrees := fun m hm j hj =>
      lt_trans ((m5.trees m hm).2 j hj).1 (m5.target m hm).1
    have hslice : ∀ m ∈ ms, 0 ≤ m.start ∧ m.start ≤ m.stop ∧ m.stop ≤ pts.length := fun m hm => by
      have := hcut.2 m hm
      exact ⟨le_trans hrem0 this.1, this.2.1, this.2.2⟩
    have hgl : ∀ m ∈ ms, _ := fun m hm => gathered_length (pos := pos) (trees := s.trees) (l := P.log2) (L := m.trees)
      fun j hj => ⟨hI.tr j (hTlt m hm j hj), hI.trMax j (hTlt m hm j hj),
        hI.full j (hTlt m hm j hj) ((m5.trees m hm).2 j hj).2.1⟩
    have hub : ∀ m ∈ ms, m.usesBuffer = true → use = true := by
      intro m hm hu
      by_contra hne
      rw [if_neg hne] at m7
      exact absurd hu (by
        have := List.countP_eq_zero.mp m7 m hm
        exact this)
    have hlen : ∀ m ∈ ms, ((moveItems pts bp s.trees m).length : ℤ) =
        ((m.trees.flatMap fun j => content (s.trees j)).length : ℤ) + ((treeSize P.log2 m.target : ℕ) : ℤ) -
          (2 ^ P.log2 * weight m.trees : ℕ) := by
      intro m hm
      have h1 := m5.size m hm
      have h2 := movePts_length (hslice m hm)
      have h3 : ((if m.usesBuffer = true then bp else []).length : ℤ) =
          if m.usesBuffer = true then (s.buf.curSize : ℤ) else 0 := by
        by_cases hu : m.usesBuffer = true
        · rw [if_pos hu, if_pos hu, b7, if_pos (hub m hm hu)]
        · rw [if_neg hu, if_neg hu]; rfl
      unfold moveItems
      rw [List.length_append, List.length_append]
      push_cast
      push_cast at h1
      rw [h2, h3]
      linarith
    have hready : ∀ m ∈ ms, MoveReady pos P.numTrees Q pts bp s.trees m := by
      intro m hm
      have ht := m5.target m hm
      have hem := hI.empty m.target ht.1 ht.2.2
      refine ⟨ht.1, hTlt m hm, (m5.trees m hm).1, hbits m hm m hm, hslice m hm, hem.1, hem.2, ?_, ?_⟩
      · rw [hI.trMax _ ht.1]
        have h1 := hlen m hm
        have h2 := (hgl m hm).1
        have h3 : ((m.trees.flatMap fun j => content (s.trees j)).length : ℤ) ≤ (2 ^ P.log2 * weight m.trees : ℕ) := by
          exact_mod_cast h2
        have h4 : ((moveItems pts bp s.trees m).length : ℤ) ≤ (treeSize P.log2 m.target : ℕ) := by linarith
        exact_mod_cast h4
      · refine hUge _ ?_
        unfold moveItems stored
        rw [← Multiset.coe_add, ← Multiset.coe_add]
        have g1 := gathered_le (trees := s.trees) (m5.trees m hm).1 (hTlt m hm)
        have g2 : (movePts pts m : Multiset α) ≤ (pts : Multiset α) := Multiset.coe_le.mpr (movePts_sub pts m).subperm
        have g3 : ((if m.usesBuffer = true then bp else [] : List α) : Multiset α) ≤ (content s.buf : Multiset α) := by
          split
          · exact b6
          · exact Multiset.zero_le _
        calc _ ≤ total P.numTrees s.trees + (pts : Multiset α) + (content s.buf : Multiset α) :=
              add_le_add (add_le_add g1 g2) g3
          _ = _ := by abel
    have hperm := hord ms
    obtain ⟨trees', t1, t2, t3, t4, t5⟩ := doMoves_ok hs pts bp (ord ms) s.trees hI.tr
      (fun m hm => hready m (hperm.mem_iff.mp hm)) ((hperm.map Move.target).nodup_iff.mpr m5.nodupT)
      ((hperm.flatMap_right Move.trees).nodup_iff.mpr m5.nodupG)
      (fun m hm m' hm' => hbits m (hperm.mem_iff.mp hm) m' (hperm.mem_iff.mp hm'))
    have hins : insert pos P ord s pts = .ok ⟨s.mask + f, buf', trees'⟩ := by
      unfold insert simulation
      simp only [hp, m1, m2, m4]
      rw [if_neg (by simp), b1]
      simp only [Except.bind, e1, t1, Except.map]
    have hb'size : buf'.curSize = b0.curSize + rem := by
      rw [i1.size, i3.length_eq, List.length_append, htl, ← b2.size]
    refine ⟨_, hins, ?_, i2, rfl, by rw [hb'size, b8], ?_, ?_, ?_⟩
    · have hcases : ∀ i < P.numTrees,
          ((s.mask + f).testBit i = true ∧ ∃ m ∈ ms, m.target = i ∧
            NewTree pos P.cs Q (s.trees i) (moveItems pts bp s.trees m) (trees' i)) ∨
          ((s.mask + f).testBit i = false ∧ trees' i = clear (s.trees i)) ∨
          ((s.mask + f).testBit i = s.mask.testBit i ∧ trees' i = s.trees i) := by
        intro i hi
        cases bw : (s.mask + f).testBit i <;> cases bo : s.mask.testBit i
        · refine Or.inr (Or.inr ⟨rfl, t4 i fun m hm => ?_⟩)
          have hm := hperm.mem_iff.mp hm
          refine ⟨?_, fun h => ?_⟩
          · rintro rfl
            rw [(m5.target m hm).2.1] at bw
            cases bw
          · rw [((m5.trees m hm).2 i h).2.1] at bo
            cases bo
        · obtain ⟨m, hm, hj⟩ := m5.allOld i hi bo bw
          exact Or.inr (Or.inl ⟨rfl, t3 i ⟨m, hperm.mem_iff.mpr hm, hj⟩⟩)
        · obtain ⟨m, hm, rfl⟩ := m5.allNew i hi bw bo
          exact Or.inl ⟨rfl, m, hm, rfl, t2 m (hperm.mem_iff.mpr hm)⟩
        · refine Or.inr (Or.inr ⟨rfl, t4 i fun m hm => ?_⟩)
          have hm := hperm.mem_iff.mp hm
          refine ⟨?_, fun h => ?_⟩
          · rintro rfl
            rw [(m5.target m hm).2.2] at bo
            cases bo
          · rw [((m5.trees m hm).2 i h).2.2] at bw
            cases bw
      refine ⟨hfit, i1, by rw [i4, b4], ?_, ?_, ?_, ?_⟩
      · intro i hi
        rcases hcases i hi with ⟨_, m, _, _, h⟩ | ⟨_, h⟩ | ⟨_, h⟩
        · exact h.inv
        · show Inv pos (trees' i)
          rw [h]; exact clear_inv (hI.tr i hi)
        · show Inv pos (trees' i)
          rw [h]; exact hI.tr i hi
      · intro i hi
        show (trees' i).maxSize = _
        rcases hcases i hi with ⟨_, m, _, _, h⟩ | ⟨_, h⟩ | ⟨_, h⟩
        · rw [h.max]; exact hI.trMax i hi
        · rw [h]; exact hI.trMax i hi
        · rw [h]; exact hI.trMax i hi
      · intro i hi hbit
        show treeSize P.log2 i < 2 * (trees' i).curSize
        have hbit : (s.mask + f).testBit i = true := hbit
        rcases hcases i hi with ⟨_, m, hm, rfl, h⟩ | ⟨hf, h⟩ | ⟨hf, h⟩
        · rw [h.size]
          have h1 := hlen m hm
          have h2 := (hgl m hm).2.1
          have h3 := m5.light m hm
          have h4 : 2 ^ P.log2 * weight m.trees < treeSize P.log2 m.target := by
            rw [treeSize, pow_add, Nat.mul_comm]
            exact Nat.mul_lt_mul_of_pos_right h3 (by positivity)
          generalize (moveItems pts bp s.trees m).length = A at h1 ⊢
          generalize (m.trees.flatMap fun j => content (s.trees j)).length = G at h1 h2
          omega
        · rw [hf] at hbit; cases hbit
        · rw [h]; exact hI.full i hi (hf ▸ hbit)
      · intro i hi hbit
        show (trees' i).curSize = 0 ∧ (trees' i).present = List.replicate (trees' i).maxSize true
        have hbit : (s.mask + f).testBit i = false := hbit
        rcases hcases i hi with ⟨hf, _⟩ | ⟨_, h⟩ | ⟨hf, h⟩
        · rw [hf] at hbit; cases hbit
        · rw [h]; exact ⟨rfl, clear_present (hI.tr i hi)⟩
        · rw [h]; exact hI.empty i hi (hf ▸ hbit)
    · have hsum : ((ord ms).map fun m => (movePts pts m : Multiset α)).sum = ((pts.drop rem : List α) : Multiset α) := by
        rw [(hperm.map _).sum_eq, cuts_sum pts ms _ _ m6 hrem0, Int.toNat_natCast, List.take_of_length_le]
        rw [List.length_drop]
        omega
      have hc2 : (ord ms).countP (fun m => m.usesBuffer) = if use = true then 1 else 0 := by
        rw [hperm.countP_eq, m7]
      have hpts : (pts : Multiset α) = ((pts.take rem : List α) : Multiset α) + ((pts.drop rem : List α) : Multiset α) := by
        rw [Multiset.coe_add, List.take_append_drop]
      unfold stored
      show (content buf' : Multiset α) + total P.numTrees trees' = _
      rw [t5, hsum, hc2, Multiset.coe_eq_coe.mpr i3, ← Multiset.coe_add, b5]
      conv_rhs => rw [hpts]
      abel
    · intro hE i hi hbit
      show (trees' i).curSize = treeSize P.log2 i
      have hbit : (s.mask + f).testBit i = true := hbit
      by_cases bo : s.mask.testBit i = true
      · rw [t4 i fun m hm => ?_]
        · exact hE i hi bo
        · have hm := hperm.mem_iff.mp hm
          refine ⟨?_, fun h => ?_⟩
          · rintro rfl
            rw [(m5.target m hm).2.2] at bo
            cases bo
          · rw [((m5.trees m hm).2 i h).2.2] at hbit
            cases hbit
      · obtain ⟨m, hm, rfl⟩ := m5.allNew i hi hbit (by simpa using bo)
        rw [(t2 m (hperm.mem_iff.mpr hm)).size]
        have h1 := hlen m hm
        have h2 := (hgl m hm).2.2 fun j hj => hE j (hTlt m hm j hj) ((m5.trees m hm).2 j hj).2.1
        rw [h2] at h1
        have h4 : ((moveItems pts bp s.trees m).length : ℤ) = (treeSize P.log2 m.target : ℕ) := by linarith
        exact_mod_cast h4
    · intro s1 s2 hA
      refine ⟨i5 Q hb.sub s2 hqb (b9 hA.1), ?_⟩
      intro i hi
      show SearchableT pos (trees' i)
      by_cases h1 : ∃ m ∈ ms, m.target = i
      · obtain ⟨m, hm, rfl⟩ := h1
        exact (t2 m (hperm.mem_iff.mpr hm)).search s1
      · by_cases h2 : ∃ m ∈ ms, i ∈ m.trees
        · obtain ⟨m, hm, hj⟩ := h2
          rw [t3 i ⟨m, hperm.mem_iff.mpr hm, hj⟩]
          intro h
          exact absurd rfl h
        · rw [t4 i fun m hm => ⟨fun h => h1 ⟨m, hperm.mem_iff.mp hm, h.symm⟩, fun h => h2 ⟨m, hperm.mem_iff.mp hm, h⟩⟩]
          exact hA.2 i hi

end Verif.LogTree
