import Verif.LogTree.DualConcModel
import Verif.BatchKd.DualConcLemmas
import Verif.LogTree.DualProps
import Verif.BatchKd.CoDynProps

set_option linter.unusedSectionVars false
set_option linter.unusedVariables false

/-! The concurrent dual-tree search over the log tree has no races; its sequential execution is the one of `DualModel`. -/

namespace Verif.LogTree

open Verif BatchKd ForkJoin

variable {α K : Type} {d : ℕ}

section
variable [Field K] [LinearOrder K] [IsStrictOrderedRing K] {pos : α → Point K d}
  {nth : ℕ → List (K × α) → List (K × α)} {dist : Point K d → Point K d → K} {parallel : Bool} {thrB thr : ℕ}

/-! ### Sequential execution -/

theorem radLoopP_seq {k : Option K → DProg α K} {m : ℕ → Option K} :
    ∀ {n i : ℕ} {rad rad' : Option K} {bufs bufs' : List (BBuf α K)}, radLoop nth n i rad bufs = .ok (rad', bufs') →
      (radLoopP nth k n i rad).seq ⟨m, bufs⟩ = (k rad').seq ⟨m, bufs'⟩ := by
  intro n
  induction n with
  | zero =>
    intro i rad rad' bufs bufs' h
    simp only [radLoop, Except.ok.injEq, Prod.mk.injEq] at h
    obtain ⟨rfl, rfl⟩ := h
    rfl
  | succ n ih =>
    intro i rad rad' bufs bufs' h
    simp only [radLoop] at h
    split at h
    · cases h
    · rename_i b hb
      obtain ⟨r, h1, h2⟩ := bind_ok' h
      simp only [radLoopP]
      rw [seq_onBuf (b := b) (b' := r.1) (x := some r.2.1) hb (by rw [h1]; rfl)]
      exact ih h2

theorem set_self {l : List (BBuf α K)} {i : ℕ} {b : BBuf α K} (h : l[i]? = some b) : l.set i b = l := by
  obtain ⟨hi, rfl⟩ := List.getElem?_eq_some_iff.1 h
  exact List.set_getElem_self hi

theorem updateLeafP_seq {i s e : ℕ} {m : ℕ → Option K} {bufs bufs' : List (BBuf α K)} {x : Option K}
    (h : updateLeaf nth s e bufs = .ok (x, bufs')) :
    (updateLeafP nth i s e).seq ⟨m, bufs⟩ = .ok ((), ⟨Function.update m i x, bufs'⟩) := by
  unfold updateLeaf at h
  split at h
  · cases h
  · rename_i b hb
    have hat : atBuf s (fun b => .ok (b, .flag b.hasK)) (⟨m, bufs⟩ : DMem α K) = (.flag b.hasK, ⟨m, bufs⟩) := by
      simp only [atBuf, hb, set_self hb]
    unfold updateLeafP
    simp only [FJ.seq, hat]
    split at h
    · rename_i hk
      simp only [hk]
      rw [radLoopP_seq h]
      rfl
    · rename_i hk
      simp only [Bool.not_eq_true] at hk
      simp only [hk]
      simp only [Except.ok.injEq, Prod.mk.injEq] at h
      obtain ⟨rfl, rfl⟩ := h
      rfl

theorem omax_zero_omax (x y : Option K) : omax (some 0) (omax (omax (some 0) x) y) = omax (omax (some 0) x) y := by
  cases x <;> cases y <;> simp [omax]

theorem omax_zero (x : Option K) : omax (some 0) (omax (some 0) x) = omax (some 0) x := by
  cases x <;> simp [omax]

theorem radLoop_nonneg : ∀ {n i : ℕ} {rad rad' : Option K} {bufs bufs' : List (BBuf α K)},
    radLoop nth n i rad bufs = .ok (rad', bufs') → omax (some 0) rad = rad → omax (some 0) rad' = rad' := by
  intro n
  induction n with
  | zero =>
    intro i rad rad' bufs bufs' h h0
    simp only [radLoop, Except.ok.injEq, Prod.mk.injEq] at h
    rw [← h.1]
    exact h0
  | succ n ih =>
    intro i rad rad' bufs bufs' h h0
    simp only [radLoop] at h
    split at h
    · cases h
    · obtain ⟨r, h1, h2⟩ := bind_ok' h
      refine ih h2 ?_
      rw [← h0]
      exact omax_zero_omax _ _

theorem updateLeaf_nonneg {s e : ℕ} {bufs bufs' : List (BBuf α K)} {x : Option K} (h : updateLeaf nth s e bufs = .ok (x, bufs')) :
    omax (some 0) x = x := by
  unfold updateLeaf at h
  split at h
  · cases h
  · split at h
    · exact radLoop_nonneg h (by simp [omax])
    · simp only [Except.ok.injEq, Prod.mk.injEq] at h
      rw [← h.1]
      simp [omax]

/-- The radius of an updated node is not negative. -/
theorem updateDual_nonneg {Q Q' : QT K d} {bufs bufs' : List (BBuf α K)} (h : updateDual nth Q bufs = .ok (Q', bufs')) :
    omax (some 0) Q'.dd = Q'.dd := by
  unfold updateDual at h
  split at h
  · cases h
  · obtain ⟨r, h1, h2⟩ := map_ok' h
    simp only [Prod.mk.injEq] at h2
    rw [← h2.1]
    exact updateLeaf_nonneg h1
  · obtain ⟨r, h1, h2⟩ := map_ok' h
    simp only [Prod.mk.injEq] at h2
    rw [← h2.1]
    exact updateLeaf_nonneg h1
  · obtain ⟨r, h1, h2⟩ := map_ok' h
    simp only [Prod.mk.injEq] at h2
    rw [← h2.1]
    exact omax_zero _
  · obtain ⟨r, h1, h2⟩ := map_ok' h
    simp only [Prod.mk.injEq] at h2
    rw [← h2.1]
    exact omax_zero _
  · obtain ⟨r, h1, h2⟩ := bind_ok' h
    obtain ⟨r, h3, h4⟩ := map_ok' h2
    simp only [Prod.mk.injEq] at h4
    rw [← h4.1]
    exact omax_zero_omax _ _

theorem updateDual_two {s e : ℕ} {b : Box K d} {x : Option K} {l r : QT K d} {bufs : List (BBuf α K)} (hl : l.isNil = false)
    (hr : r.isNil = false) : updateDual nth (.node s e b x l r) bufs =
      (updateDual nth l bufs).bind fun x => (updateDual nth r x.2).map fun y =>
        (.node s e b (omax (omax (some 0) x.1.dd) y.1.dd) x.1 y.1, y.2) := by
  cases l with
  | nil => cases hl
  | leaf => cases r with
    | nil => cases hr
    | leaf => rfl
    | node => rfl
  | node => cases r with
    | nil => cases hr
    | leaf => rfl
    | node => rfl

/-- For trees without single children. -/
theorem updateDualP_seq {qpos : ℕ → Option (Point K d)} : ∀ {Q : BT K d} {m : ℕ → Option K} {bufs : List (BBuf α K)} {Q' : QT K d} {bufs' : List (BBuf α K)},
    Q.indices.Nodup → QGood qpos (QT.ofBT Q) → updateDual nth (deco m Q) bufs = .ok (Q', bufs') →
    SeqDoes (updateDualP nth parallel thr Q) Q m bufs Q' bufs' := by
  intro Q
  induction Q with
  | nil => intro m bufs Q' bufs' _ _ h; cases h
  | leaf i s e c b =>
    intro m bufs Q' bufs' hn _ h
    simp only [deco, updateDual] at h
    obtain ⟨r, h1, h2⟩ := map_ok' h
    simp only [Prod.mk.injEq] at h2
    obtain ⟨rfl, rfl⟩ := h2
    refine ⟨_, updateLeafP_seq h1, by simp [deco], fun j hj => ?_⟩
    simp only [BT.indices, List.mem_singleton] at hj
    rw [Function.update_of_ne hj]
  | node i s e dm v b l r ihl ihr =>
    intro m bufs Q' bufs' hn hf h
    have hk := kids_of hf hn
    simp only [BT.indices, List.nodup_cons, List.mem_append, not_or, List.nodup_append] at hn
    obtain ⟨⟨hil, hir⟩, hnl, hnr, hdis⟩ := hn
    have hdl : ∀ j ∈ l.indices, j ∉ r.indices := fun j h1 h2 => hdis j h1 j h2 rfl
    have hdr : ∀ j ∈ r.indices, j ∉ l.indices := fun j h1 h2 => hdis j h2 j h1 rfl
    have zl := hk.zl
    have zr := hk.zr
    rw [deco, updateDual_two (by rw [deco_isNil]; exact zl) (by rw [deco_isNil]; exact zr)] at h
    obtain ⟨⟨x, B1⟩, h1, h2⟩ := bind_ok' h
    obtain ⟨⟨y, B2⟩, h3, h4⟩ := map_ok' h2
    simp only [Prod.mk.injEq] at h3 h4
    obtain ⟨rfl, rfl⟩ := h4
    obtain ⟨m1, a1, a2, a3⟩ := ihl hnl hk.gl h1
    have hd1 : deco m1 r = deco m r := deco_congr fun j hj => a3 j (hdr j hj)
    rw [← hd1] at h3
    obtain ⟨m2, b1, b2, b3⟩ := ihr hnr hk.gr h3
    have hd2 : deco m2 l = x := (deco_congr fun j hj => b3 j (hdl j hj)).trans a2
    have hx : x.dd = m2 l.place := by rw [← hd2, deco_dd _ zl]
    have hx1 : x.dd = m1 l.place := by rw [← a2, deco_dd _ zl]
    have hy : y.dd = m2 r.place := by rw [← b2, deco_dd _ zr]
    have hpos := updateDual_nonneg h1
    have hout : ∀ j, j ∉ (BT.node i s e dm v b l r).indices → j ≠ i ∧ j ∉ l.indices ∧ j ∉ r.indices := by
      intro j hj
      simp only [BT.indices, List.mem_cons, List.mem_append, not_or] at hj
      exact hj
    refine ⟨Function.update m2 i (omax (omax (some 0) x.dd) y.dd), ?_, ?_, ?_⟩
    · simp only [updateDualP, zl, zr, Bool.and_self, Bool.false_eq_true, if_false]
      split
      · rw [FJ.seq_bind, seq_fork, a1]
        simp only [Except.bind]
        rw [b1]
        simp only [seq_readDd]
        rw [hpos, hx, hy]
        rfl
      · rw [FJ.seq_bind, a1]
        simp only [Except.bind]
        rw [seq_readDd, FJ.seq_bind]
        simp only
        rw [b1]
        simp only [Except.bind, seq_readDd]
        rw [hx1, hy]
        rfl
    · simp only [deco, Function.update_self, QT.node.injEq, true_and]
      refine ⟨?_, ?_⟩
      · rw [← hd2]
        exact deco_congr fun j hj => Function.update_of_ne (fun e : j = i => hil (e ▸ hj)) _ _
      · rw [← b2]
        exact deco_congr fun j hj => Function.update_of_ne (fun e : j = i => hir (e ▸ hj)) _ _
    · intro j hj
      rw [Function.update_of_ne (hout j hj).1, b3 j (hout j hj).2.2, a3 j (hout j hj).2.1]

theorem knnInBufsP_seq {β : Type} {qp : β → Point K d} {t : Tree α K d} {m : ℕ → Option K} :
    ∀ {qs : List β} {pre bufs bufs' : List (BBuf α K)}, knnInBufs pos nth dist qp t qs bufs = .ok bufs' →
      (knnInBufsP pos nth dist parallel qp t qs pre.length).seq ⟨m, pre ++ bufs⟩ = .ok ((), ⟨m, pre ++ bufs'⟩) := by
  intro qs
  induction qs with
  | nil =>
    intro pre bufs bufs' h
    simp only [knnInBufs, Except.ok.injEq] at h
    rw [h]
    rfl
  | cons q qs ih =>
    intro pre bufs bufs' h
    cases bufs with
    | nil => cases h
    | cons b bs =>
      simp only [knnInBufs] at h
      obtain ⟨b', h1, h2⟩ := bind_ok' h
      obtain ⟨bs', h3, rfl⟩ := map_ok' h2
      have h4 := ih (pre := pre ++ [b']) h3
      simp only [List.length_append, List.length_singleton, List.append_assoc, List.cons_append, List.nil_append] at h4
      simp only [knnInBufsP]
      rw [seq_fork, seq_onBuf (b := b) (b' := b') (x := none) (by simp) (by rw [h1]; rfl)]
      simp only [FJ.seq, Except.bind]
      rw [List.set_append_right _ _ (by omega)]
      simp only [Nat.sub_self, List.set_cons_zero]
      exact h4

variable {β : Type} {qp : β → Point K d} {Q : Tree β K d} {boxDist : Box K d → Box K d → K}

theorem dualStepP_seq {qpos : ℕ → Option (Point K d)} (hn : Q.root.indices.Nodup) (hf : QGood qpos (QT.ofBT Q.root)) {t : Bool × Tree α K d} {m : ℕ → Option K}
    {bufs : List (BBuf α K)} {st' : QT K d × List (BBuf α K)}
    (h : dualStep pos nth dist boxDist qp Q t (deco m Q.root, bufs) = .ok st') :
    SeqDoes (dualStepP pos nth dist parallel thrB thr boxDist qp Q t) Q.root m bufs st'.1 st'.2 := by
  unfold dualStep at h
  unfold dualStepP
  split at h
  · rename_i ht
    rw [if_pos ht]
    obtain ⟨B1, h1, h2⟩ := bind_ok' h
    obtain ⟨m', a1, a2, a3⟩ := updateDualP_seq (parallel := parallel) (thr := thrB) hn hf h2
    refine ⟨m', ?_, a2, a3⟩
    have h3 := knnInBufsP_seq (parallel := parallel) (m := m) (pre := []) h1
    rw [FJ.seq_bind]
    simp only [List.length_nil, List.nil_append] at h3
    rw [h3]
    exact a1
  · rename_i ht
    rw [if_neg ht]
    exact dualHelperP_seq hn h

theorem dualTreesP_seq {qpos : ℕ → Option (Point K d)} (hn : Q.root.indices.Nodup) (hf : QGood qpos (QT.ofBT Q.root)) : ∀ {ts : List (Bool × Tree α K d)}
    {m : ℕ → Option K} {bufs : List (BBuf α K)} {st' : QT K d × List (BBuf α K)},
    dualTrees pos nth dist boxDist qp Q ts (deco m Q.root, bufs) = .ok st' →
    SeqDoes (dualTreesP pos nth dist parallel thrB thr boxDist qp Q ts) Q.root m bufs st'.1 st'.2 := by
  intro ts
  induction ts with
  | nil =>
    intro m bufs st' h
    simp only [dualTrees, Except.ok.injEq] at h
    rw [← h]
    exact ⟨m, rfl, rfl, fun _ _ => rfl⟩
  | cons t ts ih =>
    intro m bufs st' h
    simp only [dualTrees] at h
    obtain ⟨st1, h1, h2⟩ := bind_ok' h
    obtain ⟨m1, a1, a2, a3⟩ := dualStepP_seq (parallel := parallel) (thrB := thrB) (thr := thr) hn hf h1
    have h2' : dualTrees pos nth dist boxDist qp Q ts (deco m1 Q.root, st1.2) = .ok st' := by rw [a2]; exact h2
    obtain ⟨m2, b1, b2, b3⟩ := ih h2'
    refine ⟨m2, ?_, b2, fun i hi => (b3 i hi).trans (a3 i hi)⟩
    simp only [dualTreesP]
    rw [FJ.seq_bind, a1]
    exact b1

end

/-! ### No races -/

section
variable [Field K] [LinearOrder K] [IsStrictOrderedRing K] {pos : α → Point K d}
  {nth : ℕ → List (K × α) → List (K × α)} {dist : Point K d → Point K d → K} {parallel : Bool} {thrB thr : ℕ}

theorem rf_radLoopP {A : (DMem α K → DVal K × DMem α K) → Prop} {k : Option K → DProg α K} (hk : ∀ x, (k x).rf A fun _ => True) :
    ∀ (n i : ℕ) (rad : Option K), (∀ j op, i ≤ j → j < i + n → A (atBuf j op)) →
      (radLoopP nth k n i rad).rf A fun _ => True := by
  intro n
  induction n with
  | zero => intro i rad _; exact hk rad
  | succ n ih =>
    intro i rad hA
    exact rf_onBuf (hA i _ (le_refl _) (by omega)) fun x => ih (i + 1) _ fun j op h1 h2 => hA j op (by omega) (by omega)

theorem rf_updateLeafP {A : (DMem α K → DVal K × DMem α K) → Prop} {i s e : ℕ} (hi : ∀ x, A (putDd i x))
    (hse : s < e) (hA : ∀ j op, s ≤ j → j < e → A (atBuf j op)) : (updateLeafP nth i s e).rf A fun _ => True := by
  refine ⟨hA s _ (le_refl _) hse, fun m => ?_⟩
  cases (atBuf s (fun b => .ok (b, .flag b.hasK)) m).1 with
  | rad x => trivial
  | flag b =>
    cases b with
    | true => exact rf_radLoopP (fun x => rf_writeDd (hi x)) _ _ _ fun j op h1 h2 => hA j op h1 (by omega)
    | false => exact rf_writeDd (hi _)
  | bad e => trivial

theorem rf_updateDualP {qpos : ℕ → Option (Point K d)} : ∀ {Q : BT K d}, QGood qpos (QT.ofBT Q) → QFull (QT.ofBT Q) →
    Q.indices.Nodup → (updateDualP nth parallel thr Q).rf (Foot (α := α) Q) fun _ => True := by
  intro Q
  induction Q with
  | nil => intro _ _ _; trivial
  | leaf i s e c b =>
    intro hg hf hn
    exact rf_updateLeafP (fun x => .inl ⟨i, by simp [BT.indices], .inr ⟨x, rfl⟩⟩) hf
      fun j op h1 h2 => .inr ⟨j, h1, h2, op, rfl⟩
  | node i s e dm v b l r ihl ihr =>
    intro hg hf hn
    have hk := kids_of hg hn
    have hw : ∀ x, Foot (.node i s e dm v b l r : BT K d) (putDd i x : DMem α K → DVal K × DMem α K) :=
      fun x => .inl ⟨i, by simp [BT.indices], .inr ⟨x, rfl⟩⟩
    have hgl : Foot (.node i s e dm v b l r : BT K d) (getDd l.place : DMem α K → DVal K × DMem α K) :=
      .inl ⟨l.place, by simp [BT.indices, place_mem hk.zl], .inl rfl⟩
    have hgr : Foot (.node i s e dm v b l r : BT K d) (getDd r.place : DMem α K → DVal K × DMem α K) :=
      .inl ⟨r.place, by simp [BT.indices, place_mem hk.zr], .inl rfl⟩
    have hL : (updateDualP nth parallel thr l).rf (Foot (α := α) l) fun _ => True := ihl hk.gl hf.1 hk.nl
    have hR : (updateDualP nth parallel thr r).rf (Foot (α := α) r) fun _ => True := ihr hk.gr hf.2 hk.nr
    simp only [updateDualP, hk.zl, hk.zr, Bool.and_self, Bool.false_eq_true, if_false]
    split
    · exact FJ.rf_bind (rf_fork (foot_left hk) (foot_right hk) hk.comm hL hR) fun _ _ =>
        rf_readDd hgl fun x => rf_readDd hgr fun y => rf_writeDd (hw _)
    · exact FJ.rf_bind (FJ.rf_mono hL (foot_left hk)) fun _ _ => rf_readDd hgl fun x =>
        FJ.rf_bind (FJ.rf_mono hR (foot_right hk)) fun _ _ => rf_readDd hgr fun y => rf_writeDd (hw _)

variable {β : Type} {qp : β → Point K d} {Q : Tree β K d} {boxDist : Box K d → Box K d → K}

/-- The accesses to the buffers from `i` on. -/
def BufsFrom (i : ℕ) (f : DMem α K → DVal K × DMem α K) : Prop := ∃ j, i ≤ j ∧ ∃ op, f = atBuf j op

theorem rf_knnInBufsP {t : Tree α K d} : ∀ {qs : List β} {i : ℕ},
    (knnInBufsP pos nth dist parallel qp t qs i).rf (BufsFrom i) fun _ => True := by
  intro qs
  induction qs with
  | nil => intro i; trivial
  | cons q qs ih =>
    intro i
    refine rf_fork (A1 := fun f => ∃ op, f = atBuf i op) (A2 := BufsFrom (i + 1)) (fun f ⟨op, h⟩ => ⟨i, le_refl _, op, h⟩)
      (fun f ⟨j, h1, h2⟩ => ⟨j, by omega, h2⟩) ?_ (rf_onBuf ⟨_, rfl⟩ fun x => trivial) ih
    rintro f g ⟨op, rfl⟩ ⟨j, hj, op', rfl⟩
    exact comm_atBuf_atBuf (by omega) op op'

theorem rf_dualTreesP (hg : QGood (fun i => (Q.items[i]?).map qp) (QT.ofBT Q.root)) (hf : QFull (QT.ofBT Q.root))
    (hn : Q.root.indices.Nodup) : ∀ {ts : List (Bool × Tree α K d)},
    (dualTreesP pos nth dist parallel thrB thr boxDist qp Q ts).rf (fun _ => True) fun _ => True := by
  intro ts
  induction ts with
  | nil => trivial
  | cons t ts ih =>
    simp only [dualTreesP]
    refine FJ.rf_bind (P := fun _ => True) ?_ fun _ _ => ih
    unfold dualStepP
    split
    · exact FJ.rf_bind (FJ.rf_mono rf_knnInBufsP fun _ _ => trivial) fun _ _ =>
        FJ.rf_mono (rf_updateDualP hg hf hn) fun _ _ => trivial
    · exact FJ.rf_mono (rf_dualHelperP hg hn) fun _ _ => trivial

/-! ### The outcome does not depend on the schedule -/

theorem dualKnnBaseC_eq (hg : QGood (fun i => (Q.items[i]?).map qp) (QT.ofBT Q.root)) (hn : Q.root.indices.Nodup)
    (w : ℕ → List Bool) {t : Tree α K d} {k : ℕ} {rows : List (List α)}
    (h : dualKnnBase nth dist pos boxDist qp Q t k = .ok rows) :
    BatchKd.dualKnnBaseC nth dist pos parallel thr w boxDist qp Q t k = .ok rows := by
  unfold dualKnnBase at h
  obtain ⟨⟨Q', bufs'⟩, h1, h2⟩ := bind_ok' h
  rw [← deco_none] at h1
  obtain ⟨m', a1, -, -⟩ := dualHelperP_seq (parallel := parallel) (thr := thr) hn h1
  unfold BatchKd.dualKnnBaseC
  rw [FJ.run_seq w (rf_dualHelperP hg hn) a1 0]
  exact h2

theorem logDualKnnBaseC_eq (hg : QGood (fun i => (Q.items[i]?).map qp) (QT.ofBT Q.root)) (hf : QFull (QT.ofBT Q.root))
    (hn : Q.root.indices.Nodup) (w : ℕ → List Bool) {P : Params α K d} {s : LT α K d} {k : ℕ} {rows : List (List α)}
    (h : dualKnn pos nth dist boxDist qp P Q s k = .ok rows) :
    dualKnnBaseC pos nth dist parallel thrB thr w boxDist qp P Q s k = .ok rows := by
  unfold dualKnn at h
  obtain ⟨⟨Q', bufs'⟩, h1, h2⟩ := bind_ok' h
  rw [← deco_none] at h1
  obtain ⟨m', a1, -, -⟩ := dualTreesP_seq (parallel := parallel) (thrB := thrB) (thr := thr) hn hg h1
  unfold dualKnnBaseC
  rw [FJ.run_seq w (rf_dualTreesP hg hf hn) a1 0]
  exact h2

/-! ### The query tree -/

theorem qfull_strip {Q Q' : BT K d} (h : Q.strip = Q'.strip) : QFull (QT.ofBT Q) ↔ QFull (QT.ofBT Q') := by
  induction Q generalizing Q' with
  | nil => cases Q' <;> simp_all [BT.strip]
  | leaf => cases Q' <;> simp_all [BT.strip, QT.ofBT, QFull]
  | node i s e dm v b l r ihl ihr =>
    cases Q' with
    | nil => simp [BT.strip] at h
    | leaf => simp [BT.strip] at h
    | node i' s' e' dm' v' b' l' r' =>
      simp only [BT.strip, BT.node.injEq] at h
      simp only [QT.ofBT, QFull, ihl h.2.2.2.2.2.2.1, ihr h.2.2.2.2.2.2.2]

theorem queryTreeC_ok {c : CoCfg β K d} (hc : c.OK qp) {e : CoEnv K d} (he : e.OK) {qs : List β} (hq : qs ≠ [])
    (hbig : qs.length ≤ 2 ^ 47) :
    ∃ Q, queryTreeC c qp e qs = .ok Q ∧ QueryTree qp qs Q ∧ Q.root.indices.Nodup ∧ content Q = Q.items := by
  have hpos := List.length_pos_iff.mpr hq
  have hcap : qs.length ≤ (coNew (Nat.clog 2 qs.length) : Tree β K d).maxSize := Nat.le_pow_clog (by omega) _
  obtain ⟨Q, h1, h2, h3, h4, h5, h6, h7, h8, h9, h10, -⟩ := coBuild_state (parallel := c.parallel) (d0 := c.d0) hc.nth hc.srt
    hc.ls hc.thr he e.mem (coNew (Nat.clog 2 qs.length)) qs hq hcap hbig (by simp [coNew])
  obtain ⟨Q2, root, k1, k2, k3, k4, -⟩ := c69_build (parallel := c.parallel) (d0 := c.d0) (stale := fun _ => 0) hc.nth hc.srt
    hc.ls hc.thr he e.mem (coNew (Nat.clog 2 qs.length)) qs hq hcap hbig
  rw [h1] at k1
  cases k1
  have hlen : Q.items.length = qs.length := h2.length_eq
  have hfull : QFull (QT.ofBT Q.root) := by
    rw [qfull_strip k3]
    have hhalf := objectCfg_half (ls := c.ls) (par := fun n => c.parallel && decide (c.thr ≤ n)) hc.nth hc.srt
    have hok := objectCfg_ok (par := fun n => c.parallel && decide (c.thr ≤ n)) hc.nth hc.srt hc.ls
    refine buildRec_full (P := fun _ => True) ⟨hok, fun _ _ _ _ => trivial, fun dim L _ hL => ?_⟩ k2 hq trivial
    have hls := hc.ls
    rw [objectCfg_split_snd]
    have hL' : c.ls < L.length := hL
    omega
  have hgood : QGood (fun i => (Q.items[i]?).map qp) (QT.ofBT Q.root) ∧ (QT.ofBT Q.root).start = Q.root.start ∧
      (QT.ofBT Q.root).stop = Q.root.stop := by
    have hl := Nat.le_pow_clog (b := 2) (by omega) qs.length
    rw [h4] at h8
    exact qgood_of_good (hlen.le.trans hl) h8
  refine ⟨Q, ?_, ⟨by rw [h3]; exact h2, ?_, by omega, by omega, hgood.1, hfull, by rw [hgood.2.1, h9],
    by rw [hgood.2.2, h10, h5]⟩, k4, h3⟩
  · unfold queryTreeC
    rw [if_neg (by omega)]
    exact h1
  · rw [h3, List.take_of_length_le (by omega)]

end

end Verif.LogTree
