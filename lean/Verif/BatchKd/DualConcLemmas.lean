import Verif.BatchKd.DualConcModel
import Verif.BatchKd.DualLemmas
import Verif.Par.RaceFree

set_option linter.unusedSectionVars false
set_option linter.unusedVariables false

/-! The concurrent dual-tree search has no races and its sequential execution is the one of `KnnModel`. -/

namespace Verif.BatchKd

open Verif.ForkJoin

variable {α K : Type} {d : ℕ}

/-! ### The query tree with the distances of the memory -/

/-- The query tree of `KnnModel` that the nodes and the shared memory represent. -/
def deco (m : ℕ → Option K) : BT K d → QT K d
  | .nil => .nil
  | .leaf i s e _ b => .leaf s e b (m i)
  | .node i s e _ _ b l r => .node s e b (m i) (deco m l) (deco m r)

theorem deco_none (Q : BT K d) : deco (fun _ => none) Q = QT.ofBT Q := by
  induction Q with
  | nil => rfl
  | leaf => rfl
  | node _ _ _ _ _ _ l r ihl ihr => simp [deco, QT.ofBT, ihl, ihr]

theorem deco_congr {m m' : ℕ → Option K} {Q : BT K d} (h : ∀ i ∈ Q.indices, m' i = m i) : deco m' Q = deco m Q := by
  induction Q with
  | nil => rfl
  | leaf i s e c b => simp [deco, h i (by simp [BT.indices])]
  | node i s e dm v b l r ihl ihr =>
    simp only [BT.indices, List.mem_cons, List.mem_append] at h
    simp [deco, h i (.inl rfl), ihl fun j hj => h j (.inr (.inl hj)), ihr fun j hj => h j (.inr (.inr hj))]

theorem deco_isNil (m : ℕ → Option K) (Q : BT K d) : (deco m Q).isNil = Q.isNil := by cases Q <;> rfl

theorem deco_dd (m : ℕ → Option K) {Q : BT K d} (h : Q.isNil = false) : (deco m Q).dd = m Q.place := by
  cases Q with
  | nil => cases h
  | leaf => rfl
  | node => rfl

theorem place_mem {Q : BT K d} (h : Q.isNil = false) : Q.place ∈ Q.indices := by
  cases Q with
  | nil => cases h
  | leaf => simp [BT.place, BT.indices]
  | node => simp [BT.place, BT.indices]

theorem nodeDist_deco [Field K] [LinearOrder K] (boxDist : Box K d → Box K d → K) (m : ℕ → Option K) (Q R : BT K d) :
    nodeDist boxDist (deco m Q) R = boxDistB boxDist Q R := by
  cases Q <;> rfl

/-! ### Sequential execution -/

theorem seq_readDd (i : ℕ) (k : Option K → DProg α K) (s : DMem α K) :
    (readDd i k).seq s = (k (s.dd i)).seq s := rfl

theorem seq_writeDd (i : ℕ) (x : Option K) (s : DMem α K) :
    (writeDd i x : DProg α K).seq s = .ok ((), ⟨Function.update s.dd i x, s.bufs⟩) := rfl

theorem seq_fork (b : Bool) (p q : DProg α K) (s : DMem α K) :
    (fork b p q).seq s = (p.seq s).bind fun x => q.seq x.2 := by
  unfold fork
  split
  · simp only [FJ.seq]
    cases p.seq s with
    | error e => rfl
    | ok x =>
      simp only [Except.bind]
      cases q.seq x.2 with
      | error e => rfl
      | ok y => rfl
  · rw [FJ.seq_bind]

theorem bind_ok' {ε A B : Type} {x : Except ε A} {f : A → Except ε B} {y : B} (h : x.bind f = .ok y) :
    ∃ a, x = .ok a ∧ f a = .ok y := by
  cases x with
  | error e => cases h
  | ok a => exact ⟨a, rfl, h⟩

theorem map_ok' {ε A B : Type} {x : Except ε A} {f : A → B} {y : B} (h : x.map f = .ok y) :
    ∃ a, x = .ok a ∧ f a = y := by
  cases x with
  | error e => cases h
  | ok a =>
    simp only [Except.map, Except.ok.injEq] at h
    exact ⟨a, rfl, h⟩

section
variable [Field K] [LinearOrder K] {nth : ℕ → List (K × α) → List (K × α)} {dist : Point K d → Point K d → K} {pos : α → Point K d}
  {qpos : ℕ → Option (Point K d)} {items : List α} {present : List Bool} {boxDist : Box K d → Box K d → K}
  {parallel : Bool} {thr : ℕ}

theorem seq_onBuf {i : ℕ} {op : BBuf α K → Except Err (BBuf α K × DVal K)} {k : Option K → DProg α K} {s : DMem α K} {b b' : BBuf α K}
    {x : Option K} (hb : s.bufs[i]? = some b) (ho : op b = .ok (b', .rad x)) :
    (onBuf i op k).seq s = (k x).seq ⟨s.dd, s.bufs.set i b'⟩ := by
  simp only [onBuf, FJ.seq, atBuf, hb, ho]

theorem dualLeafP_seq {s e : ℕ} {k : Option K → DProg α K} {m : ℕ → Option K} :
    ∀ {n i : ℕ} {rad rad' : Option K} {bufs bufs' : List (BBuf α K)},
      dualLeaf nth dist pos qpos items present s e n i rad bufs = .ok (rad', bufs') →
      (dualLeafP nth dist pos qpos items present s e k n i rad).seq ⟨m, bufs⟩ = (k rad').seq ⟨m, bufs'⟩ := by
  intro n
  induction n with
  | zero =>
    intro i rad rad' bufs bufs' h
    simp only [dualLeaf, Except.ok.injEq, Prod.mk.injEq] at h
    obtain ⟨rfl, rfl⟩ := h
    rfl
  | succ n ih =>
    intro i rad rad' bufs bufs' h
    simp only [dualLeaf] at h
    split at h
    · rename_i q b hq hb
      obtain ⟨r, h1, h2⟩ := bind_ok' h
      simp only [dualLeafP, hq]
      rw [seq_onBuf (b := b) (b' := r.1) (x := r.2) hb (by rw [h1]; rfl)]
      exact ih h2
    · cases h

/-- What a sequential execution on the node `Q` does. -/
def SeqDoes (p : DProg α K) (Q : BT K d) (m : ℕ → Option K) (bufs : List (BBuf α K)) (Q' : QT K d) (bufs' : List (BBuf α K)) : Prop :=
  ∃ m', p.seq ⟨m, bufs⟩ = .ok ((), ⟨m', bufs'⟩) ∧ deco m' Q = Q' ∧ ∀ i, i ∉ Q.indices → m' i = m i

theorem dualHelperP_seq : ∀ {fuel : ℕ} {Q R : BT K d} {m : ℕ → Option K} {bufs : List (BBuf α K)} {Q' : QT K d}
    {bufs' : List (BBuf α K)}, Q.indices.Nodup →
    dualHelper nth dist pos boxDist qpos items present fuel (deco m Q) R bufs = .ok (Q', bufs') →
    SeqDoes (dualHelperP nth dist pos parallel thr boxDist qpos items present fuel Q R) Q m bufs Q' bufs' := by
  intro fuel
  induction fuel with
  | zero => intro Q R m bufs Q' bufs' _ h; cases h
  | succ fuel ih =>
    intro Q R m bufs Q' bufs' hn h
    cases Q with
    | nil => cases R <;> cases h
    | leaf qi qs qe qc qb =>
      have hleaf : ∀ rs re, ((dualLeaf nth dist pos qpos items present rs re (qe - qs) qs (some 0) bufs).map fun r =>
          ((.leaf qs qe qb r.1 : QT K d), r.2)) = .ok (Q', bufs') →
          SeqDoes (dualLeafP nth dist pos qpos items present rs re (fun x => writeDd qi x) (qe - qs) qs (some 0))
            (.leaf qi qs qe qc qb) m bufs Q' bufs' := by
        intro rs re h
        obtain ⟨r, h1, h2⟩ := map_ok' h
        simp only [Prod.mk.injEq] at h2
        obtain ⟨rfl, rfl⟩ := h2
        refine ⟨Function.update m qi r.1, ?_, ?_, ?_⟩
        · rw [dualLeafP_seq h1]; rfl
        · simp [deco]
        · intro i hi
          simp only [BT.indices, List.mem_singleton] at hi
          rw [Function.update_of_ne hi]
      have hpr : ∀ p : DProg α K, (QT.leaf qs qe qb (m qi), bufs) = (Q', bufs') →
          SeqDoes (.ret () : DProg α K) (.leaf qi qs qe qc qb) m bufs Q' bufs' := by
        intro p h
        simp only [Prod.mk.injEq] at h
        exact ⟨m, by rw [h.2]; rfl, h.1, fun _ _ => rfl⟩
      have hread : ∀ k : Option K → DProg α K, SeqDoes (k (m qi)) (.leaf qi qs qe qc qb) m bufs Q' bufs' →
          SeqDoes (readDd qi k) (.leaf qi qs qe qc qb) m bufs Q' bufs' := fun k h => h
      cases R with
      | nil => cases h
      | leaf ri rs re rc rb =>
        simp only [dualHelper, deco] at h
        simp only [dualHelperP]
        refine hread _ ?_
        split at h
        · rename_i hp
          rw [if_pos hp]
          exact hpr (.ret ()) (Except.ok.inj h)
        · rename_i hp
          rw [if_neg hp]
          exact hleaf _ _ h
      | node ri rs re rd rv rb rl rr =>
        simp only [dualHelper, deco] at h
        simp only [dualHelperP]
        have htwo : ∀ R1 R2 : BT K d, ((dualHelper nth dist pos boxDist qpos items present fuel (.leaf qs qe qb (m qi)) R1 bufs).bind
            fun x => dualHelper nth dist pos boxDist qpos items present fuel x.1 R2 x.2) = .ok (Q', bufs') →
            SeqDoes ((dualHelperP nth dist pos parallel thr boxDist qpos items present fuel (.leaf qi qs qe qc qb) R1).bind fun _ =>
              dualHelperP nth dist pos parallel thr boxDist qpos items present fuel (.leaf qi qs qe qc qb) R2)
              (.leaf qi qs qe qc qb) m bufs Q' bufs' := by
          intro R1 R2 h
          obtain ⟨⟨x1, x2⟩, h1, h2⟩ := bind_ok' h
          obtain ⟨m1, a1, a2, a3⟩ := ih (Q := .leaf qi qs qe qc qb) (m := m) hn h1
          simp only at h2
          rw [← a2] at h2
          obtain ⟨m2, b1, b2, b3⟩ := ih hn h2
          refine ⟨m2, ?_, b2, fun i hi => (b3 i hi).trans (a3 i hi)⟩
          rw [FJ.seq_bind, a1]
          exact b1
        split at h
        · rename_i hc
          rw [if_pos hc]
          exact ih (Q := .leaf qi qs qe qc qb) hn h
        · rename_i hc
          rw [if_neg hc]
          split at h
          · rename_i hc
            rw [if_pos hc]
            exact ih (Q := .leaf qi qs qe qc qb) hn h
          · rename_i hc
            rw [if_neg hc]
            refine hread _ ?_
            split at h
            · rename_i hp
              rw [if_pos hp]
              exact hpr (.ret ()) (Except.ok.inj h)
            · rename_i hp
              rw [if_neg hp]
              split at h
              · rename_i hc
                rw [if_pos hc]
                exact hleaf _ _ h
              · rename_i hc
                rw [if_neg hc]
                have e1 := nodeDist_deco boxDist m (.leaf qi qs qe qc qb) rl
                have e2 := nodeDist_deco boxDist m (.leaf qi qs qe qc qb) rr
                simp only [deco] at e1 e2
                simp only [e1, e2] at h
                split at h
                · rename_i hc
                  rw [if_pos hc]
                  exact htwo _ _ h
                · rename_i hc
                  rw [if_neg hc]
                  exact htwo _ _ h
    | node qi qs qe qd qv qb ql qr =>
      simp only [BT.indices, List.nodup_cons, List.mem_append, not_or, List.nodup_append] at hn
      obtain ⟨⟨hil, hir⟩, hnl, hnr, hdis⟩ := hn
      have hdl : ∀ i ∈ ql.indices, i ∉ qr.indices := fun i h1 h2 => hdis i h1 i h2 rfl
      have hdr : ∀ i ∈ qr.indices, i ∉ ql.indices := fun i h1 h2 => hdis i h2 i h1 rfl
      have hread : ∀ k : Option K → DProg α K, SeqDoes (k (m qi)) (.node qi qs qe qd qv qb ql qr) m bufs Q' bufs' →
          SeqDoes (readDd qi k) (.node qi qs qe qd qv qb ql qr) m bufs Q' bufs' := fun k h => h
      have hpr : (QT.node qs qe qb (m qi) (deco m ql) (deco m qr), bufs) = (Q', bufs') →
          SeqDoes (.ret () : DProg α K) (.node qi qs qe qd qv qb ql qr) m bufs Q' bufs' := by
        intro h
        simp only [Prod.mk.injEq] at h
        exact ⟨m, by rw [h.2]; rfl, h.1, fun _ _ => rfl⟩
      -- one call on a child
      have hL : ∀ {R1 : BT K d} {m : ℕ → Option K} {B B1 : List (BBuf α K)} {x : QT K d},
          dualHelper nth dist pos boxDist qpos items present fuel (deco m ql) R1 B = .ok (x, B1) →
          ∃ m1, (dualHelperP nth dist pos parallel thr boxDist qpos items present fuel ql R1).seq ⟨m, B⟩ = .ok ((), ⟨m1, B1⟩) ∧
            deco m1 ql = x ∧ deco m1 qr = deco m qr ∧ ∀ i, i ∉ ql.indices → m1 i = m i := by
        intro R1 m B B1 x h
        obtain ⟨m1, a1, a2, a3⟩ := ih hnl h
        exact ⟨m1, a1, a2, deco_congr fun i hi => a3 i (hdr i hi), a3⟩
      have hR : ∀ {R1 : BT K d} {m : ℕ → Option K} {B B1 : List (BBuf α K)} {x : QT K d},
          dualHelper nth dist pos boxDist qpos items present fuel (deco m qr) R1 B = .ok (x, B1) →
          ∃ m1, (dualHelperP nth dist pos parallel thr boxDist qpos items present fuel qr R1).seq ⟨m, B⟩ = .ok ((), ⟨m1, B1⟩) ∧
            deco m1 qr = x ∧ deco m1 ql = deco m ql ∧ ∀ i, i ∉ qr.indices → m1 i = m i := by
        intro R1 m B B1 x h
        obtain ⟨m1, a1, a2, a3⟩ := ih hnr h
        exact ⟨m1, a1, a2, deco_congr fun i hi => a3 i (hdl i hi), a3⟩
      have hout : ∀ i, i ∉ (BT.node qi qs qe qd qv qb ql qr).indices → i ≠ qi ∧ i ∉ ql.indices ∧ i ∉ qr.indices := by
        intro i hi
        simp only [BT.indices, List.mem_cons, List.mem_append, not_or] at hi
        exact hi
      -- the update at the end
      have hupd : ∀ {m1 : ℕ → Option K} {B1 : List (BBuf α K)}, ql.isNil = false → qr.isNil = false →
          (∀ i, i ∉ (BT.node qi qs qe qd qv qb ql qr).indices → m1 i = m i) →
          ∃ m2, ((readDd ql.place fun x => readDd qr.place fun y => writeDd qi (omax x y)) : DProg α K).seq ⟨m1, B1⟩ =
            .ok ((), ⟨m2, B1⟩) ∧ deco m2 (.node qi qs qe qd qv qb ql qr) =
              .node qs qe qb (omax (deco m1 ql).dd (deco m1 qr).dd) (deco m1 ql) (deco m1 qr) ∧
            ∀ i, i ∉ (BT.node qi qs qe qd qv qb ql qr).indices → m2 i = m i := by
        intro m1 B1 h1 h2 h3
        refine ⟨Function.update m1 qi (omax (m1 ql.place) (m1 qr.place)), rfl, ?_, ?_⟩
        · simp only [deco, Function.update_self, deco_dd m1 h1, deco_dd m1 h2, QT.node.injEq, true_and]
          exact ⟨deco_congr fun i hi => Function.update_of_ne (fun e : i = qi => hil (e ▸ hi)) _ _,
            deco_congr fun i hi => Function.update_of_ne (fun e : i = qi => hir (e ▸ hi)) _ _⟩
        · intro i hi
          rw [Function.update_of_ne (hout i hi).1]
          exact h3 i hi
      have hmain : ∀ hnil : ql.isNil = false ∧ qr.isNil = false, True := fun _ => trivial
      cases hnl' : ql.isNil <;> cases hnr' : qr.isNil
      · -- two children
        cases R with
        | nil => simp [dualHelper, deco, deco_isNil, hnl', hnr'] at h
        | leaf ri rs re rc rb =>
          simp only [dualHelper, deco, deco_isNil, hnl', hnr', Bool.not_false, Bool.and_false, Bool.and_true, Bool.false_eq_true,
            if_false, nodeDist_deco] at h
          simp only [dualHelperP, hnl', hnr', Bool.not_false, Bool.and_false, Bool.and_true, Bool.false_eq_true, if_false]
          refine hread _ ?_
          split at h
          · rename_i hp
            rw [if_pos hp]
            exact hpr (Except.ok.inj h)
          · rename_i hp
            rw [if_neg hp]
            split at h
            · rename_i hc
              rw [if_pos hc]
              obtain ⟨⟨x, B1⟩, h1, h2⟩ := bind_ok' h
              obtain ⟨m1, a1, a2, a3, a4⟩ := hL h1
              obtain ⟨⟨y, B2⟩, h3, h4⟩ := map_ok' h2
              simp only at h3
              rw [← a3] at h3
              obtain ⟨m2, b1, b2, b3, b4⟩ := hR h3
              simp only [Prod.mk.injEq] at h4
              obtain ⟨rfl, rfl⟩ := h4
              obtain ⟨m3, c1, c2, c3⟩ := hupd (m1 := m2) (B1 := B2) hnl' hnr' fun i hi => by
                rw [b4 i (hout i hi).2.2, a4 i (hout i hi).2.1]
              refine ⟨m3, ?_, by rw [c2, b2, b3, a2], c3⟩
              rw [FJ.seq_bind, seq_fork, a1]
              simp only [Except.bind]
              rw [b1]
              exact c1
            · rename_i hc
              rw [if_neg hc]
              obtain ⟨⟨x, B1⟩, h1, h2⟩ := bind_ok' h
              obtain ⟨m1, a1, a2, a3, a4⟩ := hR h1
              obtain ⟨⟨y, B2⟩, h3, h4⟩ := map_ok' h2
              simp only at h3
              rw [← a3] at h3
              obtain ⟨m2, b1, b2, b3, b4⟩ := hL h3
              simp only [Prod.mk.injEq] at h4
              obtain ⟨rfl, rfl⟩ := h4
              obtain ⟨m3, c1, c2, c3⟩ := hupd (m1 := m2) (B1 := B2) hnl' hnr' fun i hi => by
                rw [b4 i (hout i hi).2.1, a4 i (hout i hi).2.2]
              refine ⟨m3, ?_, by rw [c2, b2, b3, a2], c3⟩
              rw [FJ.seq_bind, seq_fork, a1]
              simp only [Except.bind]
              rw [b1]
              exact c1
        | node ri rs re rd rv rb rl rr =>
          simp only [dualHelper, deco, deco_isNil, hnl', hnr', Bool.not_false, Bool.and_false, Bool.and_true, Bool.false_eq_true,
            if_false, nodeDist_deco] at h
          simp only [dualHelperP, hnl', hnr', Bool.not_false, Bool.and_false, Bool.and_true, Bool.false_eq_true, if_false]
          have hnq : (BT.node qi qs qe qd qv qb ql qr).indices.Nodup := by
            simp only [BT.indices, List.nodup_cons, List.mem_append, not_or, List.nodup_append]
            exact ⟨⟨hil, hir⟩, hnl, hnr, hdis⟩
          split at h
          · rename_i hc
            rw [if_pos hc]
            exact ih (Q := .node qi qs qe qd qv qb ql qr) hnq h
          · rename_i hc
            rw [if_neg hc]
            split at h
            · rename_i hc
              rw [if_pos hc]
              exact ih (Q := .node qi qs qe qd qv qb ql qr) hnq h
            · rename_i hc
              rw [if_neg hc]
              refine hread _ ?_
              split at h
              · rename_i hp
                rw [if_pos hp]
                exact hpr (Except.ok.inj h)
              · rename_i hp
                rw [if_neg hp]
                split at h
                · cases h
                · rename_i hc
                  rw [if_neg hc]
                  obtain ⟨⟨x1, B1⟩, h1, h⟩ := bind_ok' h
                  obtain ⟨m1, a1, a2, a3, a4⟩ := hL h1
                  obtain ⟨⟨y1, B2⟩, h2, h⟩ := bind_ok' h
                  simp only at h2
                  rw [← a3] at h2
                  obtain ⟨m2, b1, b2, b3, b4⟩ := hR h2
                  obtain ⟨⟨x2, B3⟩, h3, h⟩ := bind_ok' h
                  simp only at h3
                  rw [← a2, ← b3] at h3
                  obtain ⟨m3, c1, c2, c3, c4⟩ := hL h3
                  obtain ⟨⟨y2, B4⟩, h4, h⟩ := map_ok' h
                  simp only at h4
                  rw [← b2, ← c3] at h4
                  obtain ⟨m4, d1, d2, d3, d4⟩ := hR h4
                  simp only [Prod.mk.injEq] at h
                  obtain ⟨rfl, rfl⟩ := h
                  obtain ⟨m5, e1, e2, e3⟩ := hupd (m1 := m4) (B1 := B4) hnl' hnr' fun i hi => by
                    rw [d4 i (hout i hi).2.2, c4 i (hout i hi).2.1, b4 i (hout i hi).2.2, a4 i (hout i hi).2.1]
                  refine ⟨m5, ?_, by rw [e2, d2, d3, c2], e3⟩
                  rw [FJ.seq_bind, seq_fork, a1]
                  simp only [Except.bind]
                  rw [b1]
                  simp only
                  rw [FJ.seq_bind, seq_fork, c1]
                  simp only [Except.bind]
                  rw [d1]
                  exact e1
      · cases R with
        | nil => simp [dualHelper, deco] at h
        | leaf _ _ _ _ _ =>
          simp only [dualHelper, deco, deco_isNil, hnl', hnr', Bool.not_false, Bool.and_true, if_true] at h
          simp only [dualHelperP, hnl', hnr', Bool.not_false, Bool.and_true, if_true]
          obtain ⟨⟨x, B1⟩, h1, h2⟩ := map_ok' h
          obtain ⟨m1, a1, a2, a3, a4⟩ := hL h1
          simp only [Prod.mk.injEq] at h2
          obtain ⟨rfl, rfl⟩ := h2
          refine ⟨m1, a1, ?_, fun i hi => a4 i (hout i hi).2.1⟩
          simp only [deco, a2, a3, a4 qi hil]
        | node _ _ _ _ _ _ _ _ =>
          simp only [dualHelper, deco, deco_isNil, hnl', hnr', Bool.not_false, Bool.and_true, if_true] at h
          simp only [dualHelperP, hnl', hnr', Bool.not_false, Bool.and_true, if_true]
          obtain ⟨⟨x, B1⟩, h1, h2⟩ := map_ok' h
          obtain ⟨m1, a1, a2, a3, a4⟩ := hL h1
          simp only [Prod.mk.injEq] at h2
          obtain ⟨rfl, rfl⟩ := h2
          refine ⟨m1, a1, ?_, fun i hi => a4 i (hout i hi).2.1⟩
          simp only [deco, a2, a3, a4 qi hil]
      · cases R with
        | nil => simp [dualHelper, deco] at h
        | leaf _ _ _ _ _ =>
          simp only [dualHelper, deco, deco_isNil, hnl', hnr', Bool.not_false, Bool.not_true, Bool.and_true, Bool.and_false,
            Bool.false_eq_true, if_false, if_true] at h
          simp only [dualHelperP, hnl', hnr', Bool.not_false, Bool.not_true, Bool.and_true, Bool.and_false, Bool.false_eq_true,
            if_false, if_true]
          obtain ⟨⟨x, B1⟩, h1, h2⟩ := map_ok' h
          obtain ⟨m1, a1, a2, a3, a4⟩ := hR h1
          simp only [Prod.mk.injEq] at h2
          obtain ⟨rfl, rfl⟩ := h2
          refine ⟨m1, a1, ?_, fun i hi => a4 i (hout i hi).2.2⟩
          simp only [deco, a2, a3, a4 qi hir]
        | node _ _ _ _ _ _ _ _ =>
          simp only [dualHelper, deco, deco_isNil, hnl', hnr', Bool.not_false, Bool.not_true, Bool.and_true, Bool.and_false,
            Bool.false_eq_true, if_false, if_true] at h
          simp only [dualHelperP, hnl', hnr', Bool.not_false, Bool.not_true, Bool.and_true, Bool.and_false, Bool.false_eq_true,
            if_false, if_true]
          obtain ⟨⟨x, B1⟩, h1, h2⟩ := map_ok' h
          obtain ⟨m1, a1, a2, a3, a4⟩ := hR h1
          simp only [Prod.mk.injEq] at h2
          obtain ⟨rfl, rfl⟩ := h2
          refine ⟨m1, a1, ?_, fun i hi => a4 i (hout i hi).2.2⟩
          simp only [deco, a2, a3, a4 qi hir]
      · cases R <;> simp [dualHelper, deco, deco_isNil, hnl', hnr'] at h

end

/-! ### No races -/

/-- The accesses that work on the subtree `Q`: distances of its nodes and buffers of its queries. -/
def Foot (Q : BT K d) (f : DMem α K → DVal K × DMem α K) : Prop :=
  (∃ i ∈ Q.indices, f = getDd i ∨ ∃ x, f = putDd i x) ∨ ∃ j, Q.start ≤ j ∧ j < Q.stop ∧ ∃ op, f = atBuf j op

theorem comm_getDd_getDd (i j : ℕ) : FJ.Comm (getDd i : DMem α K → DVal K × DMem α K) (getDd j) := fun s => ⟨rfl, rfl, rfl⟩

theorem comm_getDd_putDd {i j : ℕ} (h : i ≠ j) (x : Option K) :
    FJ.Comm (getDd i : DMem α K → DVal K × DMem α K) (putDd j x) := fun s => by
  refine ⟨?_, rfl, rfl⟩
  simp only [getDd, putDd, Function.update_of_ne h]

theorem comm_symm {σ V : Type} {f g : σ → V × σ} (h : FJ.Comm f g) : FJ.Comm g f :=
  fun s => ⟨(h s).2.1, (h s).1, (h s).2.2.symm⟩

theorem comm_putDd_putDd {i j : ℕ} (h : i ≠ j) (x y : Option K) :
    FJ.Comm (putDd i x : DMem α K → DVal K × DMem α K) (putDd j y) := fun s => by
  refine ⟨rfl, rfl, ?_⟩
  simp only [putDd, Function.update_comm h]

theorem comm_getDd_atBuf (i j : ℕ) (op : BBuf α K → Except Err (BBuf α K × DVal K)) : FJ.Comm (getDd i) (atBuf j op) := fun s => by
  cases hb : s.bufs[j]? with
  | none => simp [atBuf, getDd, hb]
  | some b => cases ho : op b <;> simp [atBuf, getDd, hb, ho]

theorem comm_putDd_atBuf (i j : ℕ) (x : Option K) (op : BBuf α K → Except Err (BBuf α K × DVal K)) :
    FJ.Comm (putDd i x) (atBuf j op) := fun s => by
  cases hb : s.bufs[j]? with
  | none => simp [atBuf, putDd, hb]
  | some b => cases ho : op b <;> simp [atBuf, putDd, hb, ho]

theorem comm_atBuf_atBuf {i j : ℕ} (h : i ≠ j) (op op' : BBuf α K → Except Err (BBuf α K × DVal K)) :
    FJ.Comm (atBuf i op) (atBuf j op') := fun s => by
  unfold atBuf
  cases hi : s.bufs[i]? with
  | none =>
    cases hj : s.bufs[j]? with
    | none => simp [hi, hj]
    | some b' => cases ho' : op' b' <;> simp [hi, hj, ho', List.getElem?_set_ne h.symm]
  | some b =>
    cases hj : s.bufs[j]? with
    | none => cases ho : op b <;> simp [hi, hj, ho, List.getElem?_set_ne h]
    | some b' =>
      cases ho : op b <;> cases ho' : op' b' <;>
        simp [hi, hj, ho, ho', List.getElem?_set_ne h, List.getElem?_set_ne h.symm, List.set_comm _ _ h]

/-- Accesses for two subtrees with different nodes and different queries. -/
theorem foot_comm {Q Q' : BT K d} (h : ∀ i ∈ Q.indices, i ∉ Q'.indices) (hs : Q.stop ≤ Q'.start ∨ Q'.stop ≤ Q.start)
    (f g : DMem α K → DVal K × DMem α K) (hf : Foot Q f) (hg : Foot Q' g) : FJ.Comm f g := by
  rcases hf with ⟨i, hi, hf⟩ | ⟨i, hi1, hi2, op, rfl⟩ <;> rcases hg with ⟨j, hj, hg⟩ | ⟨j, hj1, hj2, op', rfl⟩
  · have hij : i ≠ j := fun e => h i hi (e ▸ hj)
    rcases hf with rfl | ⟨x, rfl⟩ <;> rcases hg with rfl | ⟨y, rfl⟩
    · exact comm_getDd_getDd i j
    · exact comm_getDd_putDd hij y
    · exact comm_symm (comm_getDd_putDd hij.symm x)
    · exact comm_putDd_putDd hij x y
  · rcases hf with rfl | ⟨x, rfl⟩
    · exact comm_getDd_atBuf i j op'
    · exact comm_putDd_atBuf i j x op'
  · rcases hg with rfl | ⟨y, rfl⟩
    · exact comm_symm (comm_getDd_atBuf j i op)
    · exact comm_symm (comm_putDd_atBuf j i y op)
  · exact comm_atBuf_atBuf (by omega) op op'

section
variable [Field K] [LinearOrder K]

theorem rf_readDd {A : (DMem α K → DVal K × DMem α K) → Prop} {i : ℕ} {k : Option K → DProg α K} {P : Unit → Prop} (h : A (getDd i))
    (hk : ∀ x, (k x).rf A P) : (readDd i k).rf A P := ⟨h, fun s => hk (s.dd i)⟩

theorem rf_writeDd {A : (DMem α K → DVal K × DMem α K) → Prop} {i : ℕ} {x : Option K} (h : A (putDd i x)) :
    (writeDd i x : DProg α K).rf A (fun _ => True) := ⟨h, fun s => trivial⟩

theorem rf_onBuf {A : (DMem α K → DVal K × DMem α K) → Prop} {i : ℕ} {op : BBuf α K → Except Err (BBuf α K × DVal K)}
    {k : Option K → DProg α K} {P : Unit → Prop} (h : A (atBuf i op)) (hk : ∀ x, (k x).rf A P) : (onBuf i op k).rf A P := by
  refine ⟨h, fun s => ?_⟩
  cases (atBuf i op s).1 with
  | rad x => exact hk x
  | flag b => trivial
  | bad e => trivial

theorem rf_fork {A A1 A2 : (DMem α K → DVal K × DMem α K) → Prop} {b : Bool} {p q : DProg α K} (h1 : ∀ f, A1 f → A f)
    (h2 : ∀ f, A2 f → A f) (hc : ∀ f g, A1 f → A2 g → FJ.Comm f g) (hp : p.rf A1 fun _ => True) (hq : q.rf A2 fun _ => True) :
    (fork b p q).rf A fun _ => True := by
  unfold fork
  split
  · exact ⟨A1, A2, fun _ => True, fun _ => True, h1, h2, hc, hp, hq, fun _ _ _ _ => trivial⟩
  · exact FJ.rf_bind (FJ.rf_mono hp h1) fun _ _ => FJ.rf_mono hq h2

variable {nth : ℕ → List (K × α) → List (K × α)} {dist : Point K d → Point K d → K} {pos : α → Point K d}
  {qpos : ℕ → Option (Point K d)} {items : List α} {present : List Bool} {boxDist : Box K d → Box K d → K}
  {parallel : Bool} {thr : ℕ}

theorem rf_dualLeafP {A : (DMem α K → DVal K × DMem α K) → Prop} {s e : ℕ} {k : Option K → DProg α K}
    (hk : ∀ x, (k x).rf A fun _ => True) :
    ∀ (n i : ℕ) (rad : Option K), (∀ j op, i ≤ j → j < i + n → A (atBuf j op)) →
      (dualLeafP nth dist pos qpos items present s e k n i rad).rf A fun _ => True := by
  intro n
  induction n with
  | zero => intro i rad _; exact hk rad
  | succ n ih =>
    intro i rad hA
    simp only [dualLeafP]
    split
    · trivial
    · exact rf_onBuf (hA i _ (le_refl _) (by omega)) fun x => ih (i + 1) _ fun j op h1 h2 => hA j op (by omega) (by omega)

theorem ofBT_start (Q : BT K d) : (QT.ofBT Q).start = Q.start := by cases Q <;> rfl
theorem ofBT_stop (Q : BT K d) : (QT.ofBT Q).stop = Q.stop := by cases Q <;> rfl
theorem ofBT_isNil (Q : BT K d) : (QT.ofBT Q).isNil = Q.isNil := by cases Q <;> rfl

end

section
variable [Field K] [LinearOrder K] [IsStrictOrderedRing K]
variable {nth : ℕ → List (K × α) → List (K × α)} {dist : Point K d → Point K d → K} {pos : α → Point K d}
  {qpos : ℕ → Option (Point K d)} {items : List α} {present : List Bool} {boxDist : Box K d → Box K d → K}
  {parallel : Bool} {thr : ℕ}

/-- A query tree whose children have different nodes and consecutive slices. -/
structure Kids (qpos : ℕ → Option (Point K d)) (i s e : ℕ) (l r : BT K d) : Prop where
  gl : QGood qpos (QT.ofBT l)
  gr : QGood qpos (QT.ofBT r)
  nl : l.indices.Nodup
  nr : r.indices.Nodup
  dis : ∀ j ∈ l.indices, j ∉ r.indices
  s1 : l.start = s
  s2 : l.stop = r.start
  s3 : r.stop = e
  l1 : l.start ≤ l.stop
  l2 : r.start ≤ r.stop
  zl : l.isNil = false
  zr : r.isNil = false

theorem kids_of {i s e : ℕ} {dm : Fin d} {v : K} {b : Box K d} {l r : BT K d} (hg : QGood qpos (QT.ofBT (.node i s e dm v b l r)))
    (hn : (BT.node i s e dm v b l r).indices.Nodup) : Kids qpos i s e l r := by
  obtain ⟨_, g1, g2, g3, g4, g5⟩ := hg
  simp only [BT.indices, List.nodup_cons, List.mem_append, not_or, List.nodup_append] at hn
  obtain ⟨⟨hil, hir⟩, hnl, hnr, hdis⟩ := hn
  have a := g1.le
  have b := g2.le
  have z1 := g1.not_nil
  have z2 := g2.not_nil
  simp only [ofBT_start, ofBT_stop, ofBT_isNil] at a b z1 z2 g3 g4 g5
  exact ⟨g1, g2, hnl, hnr, fun j h1 h2 => hdis j h1 j h2 rfl, g3, g4, g5, a, b, z1, z2⟩

theorem foot_left {i s e : ℕ} {dm : Fin d} {v : K} {b : Box K d} {l r : BT K d} (h : Kids qpos i s e l r)
    (f : DMem α K → DVal K × DMem α K) (hf : Foot l f) : Foot (.node i s e dm v b l r) f := by
  have := h.s1; have := h.s2; have := h.s3; have := h.l1; have := h.l2
  rcases hf with ⟨j, hj, hf⟩ | ⟨j, h1, h2, hf⟩
  · exact .inl ⟨j, by simp [BT.indices, hj], hf⟩
  · exact .inr ⟨j, by simp only [BT.start]; omega, by simp only [BT.stop]; omega, hf⟩

theorem foot_right {i s e : ℕ} {dm : Fin d} {v : K} {b : Box K d} {l r : BT K d} (h : Kids qpos i s e l r)
    (f : DMem α K → DVal K × DMem α K) (hf : Foot r f) : Foot (.node i s e dm v b l r) f := by
  have := h.s1; have := h.s2; have := h.s3; have := h.l1; have := h.l2
  rcases hf with ⟨j, hj, hf⟩ | ⟨j, h1, h2, hf⟩
  · exact .inl ⟨j, by simp [BT.indices, hj], hf⟩
  · exact .inr ⟨j, by simp only [BT.start]; omega, by simp only [BT.stop]; omega, hf⟩

theorem Kids.comm {i s e : ℕ} {l r : BT K d} (h : Kids qpos i s e l r) (f g : DMem α K → DVal K × DMem α K) (hf : Foot l f)
    (hg : Foot r g) : FJ.Comm f g := foot_comm h.dis (.inl (le_of_eq h.s2)) f g hf hg

theorem rf_dualHelperP : ∀ {fuel : ℕ} {Q R : BT K d}, QGood qpos (QT.ofBT Q) → Q.indices.Nodup →
    (dualHelperP nth dist pos parallel thr boxDist qpos items present fuel Q R).rf (Foot Q) fun _ => True := by
  intro fuel
  induction fuel with
  | zero => intro Q R _ _; trivial
  | succ fuel ih =>
    intro Q R hg hn
    cases Q with
    | nil => cases R <;> trivial
    | leaf qi qs qe qc qb =>
      have hget : Foot (.leaf qi qs qe qc qb : BT K d) (getDd qi : DMem α K → DVal K × DMem α K) :=
        .inl ⟨qi, by simp [BT.indices], .inl rfl⟩
      have hleaf : ∀ rs re, (dualLeafP nth dist pos qpos items present rs re (fun x => writeDd qi x) (qe - qs) qs (some 0)).rf
          (Foot (.leaf qi qs qe qc qb : BT K d)) fun _ => True := fun rs re =>
        rf_dualLeafP (fun x => rf_writeDd (.inl ⟨qi, by simp [BT.indices], .inr ⟨x, rfl⟩⟩)) _ _ _
          fun j op h1 h2 => .inr ⟨j, h1, by simp only [BT.stop]; omega, op, rfl⟩
      cases R with
      | nil => trivial
      | leaf ri rs re rc rb =>
        simp only [dualHelperP]
        refine rf_readDd hget fun x => ?_
        split
        · trivial
        · exact hleaf _ _
      | node ri rs re rd rv rb rl rr =>
        simp only [dualHelperP]
        split
        · exact ih hg hn
        · split
          · exact ih hg hn
          · refine rf_readDd hget fun x => ?_
            split
            · trivial
            · split
              · exact hleaf _ _
              · split
                · exact FJ.rf_bind (ih hg hn) fun _ _ => ih hg hn
                · exact FJ.rf_bind (ih hg hn) fun _ _ => ih hg hn
    | node qi qs qe qd qv qb ql qr =>
      have hk := kids_of hg hn
      have hget : Foot (.node qi qs qe qd qv qb ql qr : BT K d) (getDd qi : DMem α K → DVal K × DMem α K) :=
        .inl ⟨qi, by simp [BT.indices], .inl rfl⟩
      have hL : ∀ R, (dualHelperP nth dist pos parallel thr boxDist qpos items present fuel ql R).rf (Foot ql) fun _ => True :=
        fun R => ih hk.gl hk.nl
      have hR : ∀ R, (dualHelperP nth dist pos parallel thr boxDist qpos items present fuel qr R).rf (Foot qr) fun _ => True :=
        fun R => ih hk.gr hk.nr
      have hLR : ∀ b R1 R2, (fork b (dualHelperP nth dist pos parallel thr boxDist qpos items present fuel ql R1)
          (dualHelperP nth dist pos parallel thr boxDist qpos items present fuel qr R2)).rf
            (Foot (.node qi qs qe qd qv qb ql qr : BT K d)) fun _ => True := fun b R1 R2 =>
        rf_fork (foot_left hk) (foot_right hk) hk.comm (hL R1) (hR R2)
      have hRL : ∀ b R1 R2, (fork b (dualHelperP nth dist pos parallel thr boxDist qpos items present fuel qr R1)
          (dualHelperP nth dist pos parallel thr boxDist qpos items present fuel ql R2)).rf
            (Foot (.node qi qs qe qd qv qb ql qr : BT K d)) fun _ => True := fun b R1 R2 =>
        rf_fork (foot_right hk) (foot_left hk) (fun f g hf hg => comm_symm (hk.comm g f hg hf)) (hR R1) (hL R2)
      have hU : ((readDd ql.place fun x => readDd qr.place fun y => writeDd qi (omax x y)) : DProg α K).rf
          (Foot (.node qi qs qe qd qv qb ql qr : BT K d)) fun _ => True :=
        rf_readDd (.inl ⟨ql.place, by simp [BT.indices, place_mem hk.zl], .inl rfl⟩) fun x =>
          rf_readDd (.inl ⟨qr.place, by simp [BT.indices, place_mem hk.zr], .inl rfl⟩) fun y =>
            rf_writeDd (.inl ⟨qi, by simp [BT.indices], .inr ⟨_, rfl⟩⟩)
      cases R with
      | nil => simp only [dualHelperP, hk.zl, hk.zr]; trivial
      | leaf ri rs re rc rb =>
        simp only [dualHelperP, hk.zl, hk.zr, Bool.not_false, Bool.and_false, Bool.and_true, Bool.false_eq_true, if_false]
        refine rf_readDd hget fun x => ?_
        split
        · trivial
        · split
          · exact FJ.rf_bind (hLR _ _ _) fun _ _ => hU
          · exact FJ.rf_bind (hRL _ _ _) fun _ _ => hU
      | node ri rs re rd rv rb rl rr =>
        simp only [dualHelperP, hk.zl, hk.zr, Bool.not_false, Bool.and_false, Bool.and_true, Bool.false_eq_true, if_false]
        split
        · exact ih hg hn
        · split
          · exact ih hg hn
          · refine rf_readDd hget fun x => ?_
            split
            · trivial
            · split
              · trivial
              · exact FJ.rf_bind (hLR _ _ _) fun _ _ => FJ.rf_bind (hLR _ _ _) fun _ _ => hU

end

end Verif.BatchKd
