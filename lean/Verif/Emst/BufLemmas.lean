import Verif.Emst.BufModel
import Verif.Emst.ConcProps
import Verif.Par.Emit
import Verif.Par.ParBufProps

set_option linter.unusedSectionVars false
set_option linter.unusedVariables false

/-!
Lemmas for C87: the traversals push exactly the pairs of the function models, and the buffers return what was pushed.
-/

namespace Verif.Emst

open Verif.KdTree Verif.UF Verif.Mst Verif.ForkJoin Verif.Par Verif.SpatialGraph

variable {d : ℕ} {α K β : Type}

/-! ### Buffers -/

theorem emits_pushP (who : ℕ → ℕ) (szT : ℕ) (x : β) : FJ.Emits (bufPush who szT) (pushP who szT x) [x] :=
  ⟨x, [], rfl, fun _ => rfl, rfl, .refl _⟩

theorem pushAll_append (szT szPtr : ℕ) (h : List (ℕ × β)) (w : ℕ) (x : β) (bs : List (ParBuf β)) :
    pushAll szT szPtr (h ++ [(w, x)]) bs = (pushAll szT szPtr h bs).bind fun bs' => pushAll szT szPtr [(w, x)] bs' := by
  induction h generalizing bs with
  | nil => rfl
  | cons e h ih =>
    obtain ⟨w', x'⟩ := e
    simp only [List.cons_append, pushAll]
    cases bs[w']? with
    | none => rfl
    | some b =>
      simp only
      cases b.push szT szPtr x' with
      | error e => rfl
      | ok b' =>
        simp only [Except.bind]
        rw [ih]
        rfl

/-- The buffers hold the result of some history of pushes with the elements `tr`. -/
def Pushed (P szT n : ℕ) (tr : List β) (s : BufMem β) : Prop :=
  ∃ h : List (ℕ × β), h.map (·.2) = tr ∧ (∀ e ∈ h, e.1 < P) ∧
    pushAll szT 8 h (List.replicate P (ParBuf.new (n / P))) = .ok s.1

theorem pushed_step {P szT n : ℕ} (hn : 1 ≤ n / P) (hsz : 8 ≤ szT) {who : ℕ → ℕ} (hw : ∀ i, who i < P)
    (tr : List β) (s : BufMem β) (x : β) (h : Pushed P szT n tr s) :
    (bufPush who szT x s).1 = none ∧ Pushed P szT n (tr ++ [x]) (bufPush who szT x s).2 := by
  obtain ⟨h, rfl, h2, h3⟩ := h
  have h4 : ∀ e ∈ h ++ [(who s.2, x)], e.1 < P := by
    intro e he
    rcases List.mem_append.mp he with he | he
    · exact h2 e he
    · rw [List.mem_singleton.mp he]; exact hw _
  obtain ⟨bs, ws, m, g1, -⟩ := c10_collect P (n / P) szT 8 hn (by omega) hsz (h ++ [(who s.2, x)]) h4
  have g1' := g1
  rw [pushAll_append, h3] at g1
  simp only [Except.bind, pushAll] at g1
  unfold bufPush
  cases hb : s.1[who s.2]? with
  | none => rw [hb] at g1; cases g1
  | some b =>
    rw [hb] at g1
    simp only at g1 ⊢
    cases hp : b.push szT 8 x with
    | error e => rw [hp] at g1; cases g1
    | ok b' =>
      rw [hp] at g1
      refine ⟨rfl, h ++ [(who s.2, x)], by simp, h4, ?_⟩
      rw [g1', ← g1]

/-- Everything pushed is collected. -/
theorem bufRun_ok (env : BufEnv β) {P szT n : ℕ} (hP : P ≤ n) (hsz : 8 ≤ szT) (hw : ∀ i, env.who i < P)
    (hc : ∀ l, (env.copy l).Perm l) {prog : BufProg β} {l : List β} (h : FJ.Emits (bufPush env.who szT) prog l) :
    ∃ out, bufRun env P szT n prog = .ok out ∧ out.Perm l := by
  have hn : 1 ≤ n / P := (Nat.one_le_div_iff ((Nat.zero_le _).trans_lt (hw 0))).mpr hP
  obtain ⟨r, s, l', g1, g2, g3⟩ := h.run (I := Pushed P szT n) (pushed_step hn hsz hw) env.sched (tr := [])
    (s := (List.replicate P (ParBuf.new (n / P)), 0)) ⟨[], rfl, by simp, rfl⟩ 0
  obtain ⟨hist, k1, k2, k3⟩ := g3
  obtain ⟨bs, ws, m, c1, c2, -, c3⟩ := c10_collect P (n / P) szT 8 hn (by omega) hsz hist k2
  rw [k3] at c1
  cases c1
  obtain ⟨out, o1, -, o2⟩ := c3 (env.copy ws) (hc ws)
  refine ⟨out, ?_, o2.trans (by rw [k1]; exact g2)⟩
  unfold bufRun collectSeq
  rw [g1]
  simp only [Except.bind, c2, o1]
  rw [mapM_some]

theorem run_ret {σ V R : Type} (w : ℕ → List Bool) (i : ℕ) (r : R) (s : σ) :
    (FJ.ret r : FJ σ V R).run w i s = .ok (r, s) := by
  unfold FJ.run
  split
  · rename_i h; simp only [FJ.fin, Option.some.injEq, Except.ok.injEq] at h; rw [h]
  · rename_i h; simp [FJ.fin] at h
  · rename_i h; simp [FJ.fin] at h

/-- With fewer elements than workers the buffers have no room, and the first push writes outside its array. -/
theorem bufRun_ub (env : BufEnv β) {P szT n : ℕ} (hP : n < P) {prog : BufProg β} {l : List β}
    (h : FJ.Emits (bufPush env.who szT) prog l) (hl : l ≠ []) : bufRun env P szT n prog = .error .ub := by
  have := h.run_error (B := fun s => s.1 = List.replicate P (ParBuf.new 0)) (e := .ub) (by
    intro s x hs
    unfold bufPush
    rw [hs, List.getElem?_replicate]
    split
    · rfl
    · rename_i b hb
      split at hb
      · cases hb
        rw [c10_init_zero_ub]
      · cases hb) env.sched hl (s := (List.replicate P (ParBuf.new (n / P)), 0)) (by
        rw [Nat.div_eq_of_lt hP]) 0
  unfold bufRun
  rw [this]
  rfl

/-- Without a push nothing is collected, whatever the size of the buffers. -/
theorem bufRun_nil (env : BufEnv β) {P szT n : ℕ} (hc : ∀ l, (env.copy l).Perm l) {prog : BufProg β}
    (h : FJ.Emits (bufPush env.who szT) prog []) : bufRun env P szT n prog = .ok [] := by
  have key : ∀ (p : BufProg β), FJ.Emits (bufPush env.who szT) p [] → ∀ i s,
      ∃ r, p.run env.sched i s = .ok (r, s) := by
    intro p
    induction (FJ.next_acc p) with
    | intro p _ ih =>
      intro hp i s
      unfold FJ.run
      split
      · rename_i r hr; exact ⟨r, rfl⟩
      · rename_i e he; rw [FJ.fin_err he] at hp; exact hp.elim
      · rename_i hf
        have hstep : ∀ (w : List Bool) (q : BufProg β), FJ.Emits (bufPush env.who szT) q [] →
            (FJ.step w q s).2 = s ∧ FJ.Emits (bufPush env.who szT) (FJ.step w q s).1 [] := by
          intro w q
          induction q generalizing w with
          | ret r => exact fun h => ⟨rfl, h⟩
          | err e => exact fun h => h.elim
          | act f k _ => rintro ⟨x, l', -, -, -, h⟩; exact absurd h.symm.eq_nil (by simp)
          | par a b k iha ihb ihk =>
            rintro ⟨l1, l2, l3, g1, g2, g3, g4⟩
            have e := g4.symm.eq_nil
            simp only [List.append_eq_nil_iff] at e
            obtain ⟨⟨rfl, rfl⟩, rfl⟩ := e
            obtain ⟨p1, p2⟩ := iha w.tail g1
            obtain ⟨q1, q2⟩ := ihb w.tail g2
            have hleft : (FJ.step w.tail a s).2 = s ∧ FJ.Emits (bufPush env.who szT) (.par (FJ.step w.tail a s).1 b k) [] :=
              ⟨p1, [], [], [], p2, g2, g3, .refl _⟩
            have hright : (FJ.step w.tail b s).2 = s ∧ FJ.Emits (bufPush env.who szT) (.par a (FJ.step w.tail b s).1 k) [] :=
              ⟨q1, [], [], [], g1, q2, g3, .refl _⟩
            unfold FJ.step
            split
            · rename_i e hp
              rw [FJ.fin_err hp] at g1
              exact g1.elim
            · rename_i e hq _
              rw [FJ.fin_err hq] at g2
              exact g2.elim
            · exact ⟨rfl, g3 _ _⟩
            · exact hright
            · exact hleft
            · split
              · exact hleft
              · exact hright
        obtain ⟨s1, s2⟩ := hstep (env.sched i) p hp
        rw [s1]
        exact ih _ (FJ.step_next (env.sched i) p s hf) s2 (i + 1) s
  obtain ⟨r, hr⟩ := key prog h 0 (List.replicate P (ParBuf.new (n / P)), 0)
  unfold bufRun
  rw [hr]
  have hcol : ∀ m Q, finalizeAll (List.replicate Q (ParBuf.new m : ParBuf β)) =
      .ok (List.replicate Q ({ (ParBuf.new m : ParBuf β) with sizes := (List.replicate 11 none).set 0 (some 0) }, 0)) := by
    intro m Q
    induction Q with
    | zero => rfl
    | succ Q ih =>
      have e1 : (ParBuf.new m : ParBuf β).finalize =
          .ok { (ParBuf.new m : ParBuf β) with sizes := (List.replicate 11 none).set 0 (some 0) } := by
        simp [ParBuf.finalize, ParBuf.new]
      rw [List.replicate_succ, List.replicate_succ]
      simp only [finalizeAll, e1, Except.bind]
      rw [ih]
      rfl
  have hcopy : ∀ off m Q, copyAll off (List.replicate Q
      ({ (ParBuf.new m : ParBuf β) with sizes := (List.replicate 11 none).set 0 (some 0) }, 0)) = .ok [] := by
    intro off m Q
    induction Q generalizing off with
    | zero => rfl
    | succ Q ih =>
      have e1 : ({ (ParBuf.new m : ParBuf β) with sizes := (List.replicate 11 none).set 0 (some 0) } : ParBuf β).copy off =
          .ok [] := by
        simp only [ParBuf.copy, ParBuf.new, List.length_singleton, List.length_set, List.length_replicate]
        rfl
      rw [List.replicate_succ]
      simp only [copyAll, e1, Except.bind]
      rw [ih]
      rfl
  simp only [Except.bind]
  unfold collectSeq collect
  rw [hcol]
  simp only [Except.bind, hcopy, Except.map]
  have e2 : env.copy [] = [] := (hc []).eq_nil
  rw [e2]
  have e3 : (List.map (fun x : ParBuf β × ℕ => x.2) (List.replicate P ({ (ParBuf.new (n / P) : ParBuf β) with
      sizes := (List.replicate 11 none).set 0 (some 0) }, 0))).sum = 0 := by simp
  simp only [e3]
  rfl

/-! ### Traversals -/

section

variable [Field K] [LinearOrder K] {σ : Type} {E : β → BufMem β → Option Err × BufMem β}
  {moveon : NTree α K d → NTree α K d → Bool} {ws : Tree α K d → Tree α K d → Bool}
  {run : NTree α K d × NTree α K d → BufProg β} {em : NTree α K d × NTree α K d → List β}

theorem emits_findPairSerialG (fuel : ℕ) (u v : NTree α K d) (L : List (NTree α K d × NTree α K d))
    (h : findPairSerialF moveon ws fuel u v = .ok L) (hr : ∀ p ∈ L, FJ.Emits E (run p) (em p)) :
    FJ.Emits E (findPairSerialG moveon ws run fuel u v) (L.flatMap em) := by
  induction fuel generalizing u v L with
  | zero => cases h
  | succ fuel ih =>
    have two : ∀ (a b c e : NTree α K d), ((findPairSerialF moveon ws fuel a b).bind fun o1 =>
        (findPairSerialF moveon ws fuel c e).map fun o2 => o1 ++ o2) = .ok L →
        FJ.Emits E ((findPairSerialG moveon ws run fuel a b).bind fun _ => findPairSerialG moveon ws run fuel c e)
          (L.flatMap em) := by
      intro a b c e h
      cases h1 : findPairSerialF moveon ws fuel a b with
      | error x => rw [h1] at h; cases h
      | ok L1 =>
        cases h2 : findPairSerialF moveon ws fuel c e with
        | error x => rw [h1, h2] at h; cases h
        | ok L2 =>
          rw [h1, h2] at h
          cases h
          rw [List.flatMap_append]
          exact (ih a b L1 h1 fun p hp => hr p (List.mem_append_left _ hp)).bind
            fun _ => ih c e L2 h2 fun p hp => hr p (List.mem_append_right _ hp)
    unfold findPairSerialF at h
    unfold findPairSerialG
    by_cases hm : (!moveon u v) = true
    · rw [if_pos hm] at h ⊢
      cases h
      rfl
    rw [if_neg hm] at h ⊢
    by_cases hw : ws u.tree v.tree = true
    · rw [if_pos hw] at h ⊢
      cases h
      simpa using hr (u, v) (by simp)
    rw [if_neg hw] at h ⊢
    cases u with
    | leaf ju bu iu =>
      cases v with
      | leaf jv bv iv => cases h
      | node jv bv vl vr => exact two _ _ _ _ h
    | node ju bu ul ur =>
      cases v with
      | leaf jv bv iv => exact two _ _ _ _ h
      | node jv bv vl vr =>
        simp only at h ⊢
        by_cases hl : lMax bu > lMax bv
        · rw [if_pos hl] at h ⊢
          exact two _ _ _ _ h
        · rw [if_neg hl] at h ⊢
          exact two _ _ _ _ h

theorem emits_findPairParallelG (fuel : ℕ) (u v : NTree α K d) (L : List (NTree α K d × NTree α K d))
    (h : findPairParallelF moveon moveon ws fuel u v = .ok L) (hr : ∀ p ∈ L, FJ.Emits E (run p) (em p)) :
    FJ.Emits E (findPairParallelG moveon ws run fuel u v) (L.flatMap em) := by
  induction fuel generalizing u v L with
  | zero => cases h
  | succ fuel ih =>
    have two : ∀ (a b c e : NTree α K d), ((findPairParallelF moveon moveon ws fuel a b).bind fun o1 =>
        (findPairParallelF moveon moveon ws fuel c e).map fun o2 => o1 ++ o2) = .ok L →
        FJ.Emits E (.par (findPairParallelG moveon ws run fuel a b) (findPairParallelG moveon ws run fuel c e)
          fun _ _ => .ret ()) (L.flatMap em) := by
      intro a b c e h
      cases h1 : findPairParallelF moveon moveon ws fuel a b with
      | error x => rw [h1] at h; cases h
      | ok L1 =>
        cases h2 : findPairParallelF moveon moveon ws fuel c e with
        | error x => rw [h1, h2] at h; cases h
        | ok L2 =>
          rw [h1, h2] at h
          cases h
          refine ⟨_, _, [], ih a b L1 h1 fun p hp => hr p (List.mem_append_left _ hp),
            ih c e L2 h2 fun p hp => hr p (List.mem_append_right _ hp), fun _ _ => rfl, ?_⟩
          rw [List.flatMap_append, List.append_nil]
    unfold findPairParallelF at h
    unfold findPairParallelG
    by_cases hm : (!moveon u v) = true
    · rw [if_pos hm] at h ⊢
      cases h
      rfl
    rw [if_neg hm] at h ⊢
    by_cases hs : u.size + v.size < 2000
    · rw [if_pos hs] at h ⊢
      exact emits_findPairSerialG _ _ _ _ h hr
    rw [if_neg hs] at h ⊢
    by_cases hw : ws u.tree v.tree = true
    · rw [if_pos hw] at h ⊢
      cases h
      simpa using hr (u, v) (by simp)
    rw [if_neg hw] at h ⊢
    cases u with
    | leaf ju bu iu =>
      cases v with
      | leaf jv bv iv => cases h
      | node jv bv vl vr => exact two _ _ _ _ h
    | node ju bu ul ur =>
      cases v with
      | leaf jv bv iv => exact two _ _ _ _ h
      | node jv bv vl vr =>
        simp only at h ⊢
        by_cases hl : lMax bu > lMax bv
        · rw [if_pos hl] at h ⊢
          exact two _ _ _ _ h
        · rw [if_neg hl] at h ⊢
          exact two _ _ _ _ h

theorem emits_wspdSerialG {start : NTree α K d → Bool} (t : NTree α K d) (L : List (NTree α K d × NTree α K d))
    (h : wspdSerialF start moveon ws t = .ok L) (hr : ∀ p ∈ L, FJ.Emits E (run p) (em p)) :
    FJ.Emits E (wspdSerialG start moveon ws run t) (L.flatMap em) := by
  induction t generalizing L with
  | leaf i b items => cases h; rfl
  | node i b l r ihl ihr =>
    unfold wspdSerialF at h
    unfold wspdSerialG
    by_cases hs : start (.node i b l r) = true
    · rw [if_pos hs] at h ⊢
      cases h1 : wspdSerialF start moveon ws l with
      | error x => rw [h1] at h; cases h
      | ok L1 =>
        cases h2 : wspdSerialF start moveon ws r with
        | error x => rw [h1, h2] at h; cases h
        | ok L2 =>
          cases h3 : findPairSerialF moveon ws (l.tree.height + r.tree.height + 1) l r with
          | error x => rw [h1, h2, h3] at h; cases h
          | ok L3 =>
            rw [h1, h2, h3] at h
            cases h
            rw [List.flatMap_append, List.flatMap_append, List.append_assoc]
            refine (ihl L1 h1 fun p hp => hr p (by simp [hp])).bind fun _ =>
              (ihr L2 h2 fun p hp => hr p (by simp [hp])).bind fun _ =>
                emits_findPairSerialG _ _ _ _ h3 fun p hp => hr p (by simp [hp])
    · rw [if_neg hs] at h ⊢
      cases h
      rfl

theorem emits_wspdParallelG {start : NTree α K d → Bool} (t : NTree α K d) (L : List (NTree α K d × NTree α K d))
    (h : wspdParallelF start moveon moveon ws t = .ok L) (hr : ∀ p ∈ L, FJ.Emits E (run p) (em p)) :
    FJ.Emits E (wspdParallelG start moveon ws run t) (L.flatMap em) := by
  induction t generalizing L with
  | leaf i b items =>
    unfold wspdParallelF at h
    unfold wspdParallelG
    split at h
    · rename_i hs
      rw [if_pos hs]
      exact emits_wspdSerialG _ _ h hr
    · rename_i hs
      rw [if_neg hs]
      cases h
      rfl
  | node i b l r ihl ihr =>
    unfold wspdParallelF at h
    unfold wspdParallelG
    by_cases hz : (NTree.node i b l r).size < 2000
    · rw [if_pos hz] at h ⊢
      exact emits_wspdSerialG _ _ h hr
    rw [if_neg hz] at h ⊢
    by_cases hs : start (.node i b l r) = true
    · rw [if_pos hs] at h ⊢
      cases h1 : wspdParallelF start moveon moveon ws l with
      | error x => rw [h1] at h; cases h
      | ok L1 =>
        cases h2 : wspdParallelF start moveon moveon ws r with
        | error x => rw [h1, h2] at h; cases h
        | ok L2 =>
          cases h3 : findPairParallelF moveon moveon ws (l.tree.height + r.tree.height + 1) l r with
          | error x => rw [h1, h2, h3] at h; cases h
          | ok L3 =>
            rw [h1, h2, h3] at h
            cases h
            refine ⟨_, _, _, ihl L1 h1 fun p hp => hr p (by simp [hp]), ihr L2 h2 fun p hp => hr p (by simp [hp]),
              fun _ _ => emits_findPairParallelG _ _ _ _ h3 fun p hp => hr p (by simp [hp]), ?_⟩
            rw [List.flatMap_append, List.flatMap_append]
    · rw [if_neg hs] at h ⊢
      cases h
      rfl

/-! Without filters the traversal on the tree with ids is the one on the tree without. -/

theorem findPairSerialF_all (fuel : ℕ) (u v : NTree α K d) (out : List (Tree α K d × Tree α K d))
    (h : findPairSerial ws fuel u.tree v.tree = .ok out) :
    ∃ L, findPairSerialF (fun _ _ => true) ws fuel u v = .ok L ∧ L.map treePair = out := by
  induction fuel generalizing u v out with
  | zero => cases h
  | succ fuel ih =>
    have two : ∀ (a b c e : NTree α K d), (do
        return (← findPairSerial ws fuel a.tree b.tree) ++ (← findPairSerial ws fuel c.tree e.tree)) = .ok out →
        ∃ L, ((findPairSerialF (fun _ _ => true) ws fuel a b).bind fun o1 =>
          (findPairSerialF (fun _ _ => true) ws fuel c e).map fun o2 => o1 ++ o2) = .ok L ∧ L.map treePair = out := by
      intro a b c e h
      cases h1 : findPairSerial ws fuel a.tree b.tree with
      | error x => rw [h1] at h; cases h
      | ok o1 =>
        cases h2 : findPairSerial ws fuel c.tree e.tree with
        | error x => rw [h1, h2] at h; cases h
        | ok o2 =>
          rw [h1, h2] at h
          cases h
          obtain ⟨L1, k1, k2⟩ := ih a b o1 h1
          obtain ⟨L2, k3, k4⟩ := ih c e o2 h2
          exact ⟨L1 ++ L2, by rw [k1, k3]; rfl, by rw [List.map_append, k2, k4]⟩
    unfold findPairSerial at h
    unfold findPairSerialF
    simp only [Bool.not_true, Bool.false_eq_true, if_false]
    by_cases hw : ws u.tree v.tree = true
    · rw [if_pos hw] at h ⊢
      cases h
      exact ⟨_, rfl, rfl⟩
    rw [if_neg hw] at h ⊢
    cases u with
    | leaf ju bu iu =>
      cases v with
      | leaf jv bv iv => cases h
      | node jv bv vl vr => exact two vl (.leaf ju bu iu) vr (.leaf ju bu iu) h
    | node ju bu ul ur =>
      cases v with
      | leaf jv bv iv => exact two ul (.leaf jv bv iv) ur (.leaf jv bv iv) h
      | node jv bv vl vr =>
        simp only [NTree.tree] at h ⊢
        by_cases hl : lMax bu > lMax bv
        · rw [if_pos hl] at h ⊢
          exact two ul (.node jv bv vl vr) ur (.node jv bv vl vr) h
        · rw [if_neg hl] at h ⊢
          exact two vl (.node ju bu ul ur) vr (.node ju bu ul ur) h

theorem findPairParallelF_all (fuel : ℕ) (u v : NTree α K d) (out : List (Tree α K d × Tree α K d))
    (h : findPairParallel ws fuel u.tree v.tree = .ok out) :
    ∃ L, findPairParallelF (fun _ _ => true) (fun _ _ => true) ws fuel u v = .ok L ∧ L.map treePair = out := by
  induction fuel generalizing u v out with
  | zero => cases h
  | succ fuel ih =>
    have two : ∀ (a b c e : NTree α K d), (do
        return (← findPairParallel ws fuel a.tree b.tree) ++ (← findPairParallel ws fuel c.tree e.tree)) = .ok out →
        ∃ L, ((findPairParallelF (fun _ _ => true) (fun _ _ => true) ws fuel a b).bind fun o1 =>
          (findPairParallelF (fun _ _ => true) (fun _ _ => true) ws fuel c e).map fun o2 => o1 ++ o2) = .ok L ∧
          L.map treePair = out := by
      intro a b c e h
      cases h1 : findPairParallel ws fuel a.tree b.tree with
      | error x => rw [h1] at h; cases h
      | ok o1 =>
        cases h2 : findPairParallel ws fuel c.tree e.tree with
        | error x => rw [h1, h2] at h; cases h
        | ok o2 =>
          rw [h1, h2] at h
          cases h
          obtain ⟨L1, k1, k2⟩ := ih a b o1 h1
          obtain ⟨L2, k3, k4⟩ := ih c e o2 h2
          exact ⟨L1 ++ L2, by rw [k1, k3]; rfl, by rw [List.map_append, k2, k4]⟩
    unfold findPairParallel at h
    unfold findPairParallelF
    simp only [Bool.not_true, Bool.false_eq_true, if_false]
    by_cases hs : u.size + v.size < 2000
    · rw [if_pos hs]
      rw [if_pos (show u.tree.size + v.tree.size < 2000 from hs)] at h
      exact findPairSerialF_all _ _ _ _ h
    rw [if_neg hs]
    rw [if_neg (show ¬ u.tree.size + v.tree.size < 2000 from hs)] at h
    by_cases hw : ws u.tree v.tree = true
    · rw [if_pos hw] at h ⊢
      cases h
      exact ⟨_, rfl, rfl⟩
    rw [if_neg hw] at h ⊢
    cases u with
    | leaf ju bu iu =>
      cases v with
      | leaf jv bv iv => cases h
      | node jv bv vl vr => exact two vl (.leaf ju bu iu) vr (.leaf ju bu iu) h
    | node ju bu ul ur =>
      cases v with
      | leaf jv bv iv => exact two ul (.leaf jv bv iv) ur (.leaf jv bv iv) h
      | node jv bv vl vr =>
        simp only [NTree.tree] at h ⊢
        by_cases hl : lMax bu > lMax bv
        · rw [if_pos hl] at h ⊢
          exact two ul (.node jv bv vl vr) ur (.node jv bv vl vr) h
        · rw [if_neg hl] at h ⊢
          exact two vl (.node ju bu ul ur) vr (.node ju bu ul ur) h

theorem wspdSerialF_all (t : NTree α K d) (out : List (Tree α K d × Tree α K d)) (h : wspdSerial ws t.tree = .ok out) :
    ∃ L, wspdSerialF (fun _ => true) (fun _ _ => true) ws t = .ok L ∧ L.map treePair = out := by
  induction t generalizing out with
  | leaf i b items => cases h; exact ⟨_, rfl, rfl⟩
  | node i b l r ihl ihr =>
    simp only [NTree.tree, wspdSerial] at h
    cases h1 : wspdSerial ws l.tree with
    | error x => rw [h1] at h; cases h
    | ok o1 =>
      cases h2 : wspdSerial ws r.tree with
      | error x => rw [h1, h2] at h; cases h
      | ok o2 =>
        cases h3 : findPairSerial ws (l.tree.height + r.tree.height + 1) l.tree r.tree with
        | error x => rw [h1, h2, h3] at h; cases h
        | ok o3 =>
          rw [h1, h2, h3] at h
          cases h
          obtain ⟨L1, k1, k2⟩ := ihl o1 h1
          obtain ⟨L2, k3, k4⟩ := ihr o2 h2
          obtain ⟨L3, k5, k6⟩ := findPairSerialF_all _ l r o3 h3
          refine ⟨L1 ++ L2 ++ L3, ?_, by rw [List.map_append, List.map_append, k2, k4, k6]⟩
          unfold wspdSerialF
          rw [if_pos rfl, k1, k3, k5]
          rfl

theorem wspdParallelF_all (t : NTree α K d) (out : List (Tree α K d × Tree α K d)) (h : wspdParallel ws t.tree = .ok out) :
    ∃ L, wspdParallelF (fun _ => true) (fun _ _ => true) (fun _ _ => true) ws t = .ok L ∧ L.map treePair = out := by
  induction t generalizing out with
  | leaf i b items =>
    simp only [NTree.tree, wspdParallel] at h
    unfold wspdParallelF
    split at h
    · rename_i hs
      rw [if_pos (show (NTree.leaf i b items).size < 2000 from hs)]
      exact wspdSerialF_all (.leaf i b items) out h
    · rename_i hs
      rw [if_neg (show ¬ (NTree.leaf i b items).size < 2000 from hs)]
      cases h
      exact ⟨_, rfl, rfl⟩
  | node i b l r ihl ihr =>
    simp only [NTree.tree, wspdParallel] at h
    unfold wspdParallelF
    by_cases hs : (NTree.node i b l r).size < 2000
    · rw [if_pos hs]
      rw [if_pos (show (KdTree.Tree.node b l.tree r.tree).size < 2000 from hs)] at h
      exact wspdSerialF_all (.node i b l r) out h
    rw [if_neg hs]
    rw [if_neg (show ¬ (KdTree.Tree.node b l.tree r.tree).size < 2000 from hs)] at h
    cases h1 : wspdParallel ws l.tree with
    | error x => rw [h1] at h; cases h
    | ok o1 =>
      cases h2 : wspdParallel ws r.tree with
      | error x => rw [h1, h2] at h; cases h
      | ok o2 =>
        cases h3 : findPairParallel ws (l.tree.height + r.tree.height + 1) l.tree r.tree with
        | error x => rw [h1, h2, h3] at h; cases h
        | ok o3 =>
          rw [h1, h2, h3] at h
          cases h
          obtain ⟨L1, k1, k2⟩ := ihl o1 h1
          obtain ⟨L2, k3, k4⟩ := ihr o2 h2
          obtain ⟨L3, k5, k6⟩ := findPairParallelF_all _ l r o3 h3
          refine ⟨L1 ++ L2 ++ L3, ?_, by rw [List.map_append, List.map_append, k2, k4, k6]⟩
          rw [if_pos rfl, k1, k3, k5]
          rfl

end

/-! ### The operation objects -/

theorem ofTree_tree' (t : Tree α K d) : (NTree.ofTree t).tree = t := by
  induction t with
  | leaf b items => rfl
  | node b l r ihl ihr => simp only [NTree.ofTree, NTree.tree, ihl, ihr]

theorem emits_wspdBuf (who : ℕ → ℕ) (s : ℝ) (t : Tree α ℝ d) (out0 : List (Tree α ℝ d × Tree α ℝ d))
    (h : wspdParallel (geomWellSeparated s) t = .ok out0) :
    FJ.Emits (bufPush who 16) (wspdParallelG (fun _ => true) (fun _ _ => true) (geomWellSeparated s)
      (fun p => pushP who 16 (p.1.tree, p.2.tree)) (NTree.ofTree t)) out0 := by
  obtain ⟨L, h1, rfl⟩ := wspdParallelF_all (ws := geomWellSeparated s) (NTree.ofTree t) out0
    (by rw [ofTree_tree']; exact h)
  have := emits_wspdParallelG (E := bufPush who 16) (run := fun p => pushP who 16 (p.1.tree, p.2.tree))
    (em := fun p => [treePair p]) _ L h1 fun p _ => emits_pushP who 16 _
  rwa [← List.map_eq_flatMap] at this

/-- The second traversal pushes the edges of the function model. -/
theorem emits_getBuf (pos : ℕ → Point ℝ d) (n : ℕ) (t : NTree ℕ ℝ d) (hs : Sound pos 1 t.tree)
    (hp : t.tree.items.Perm (List.range n))
    (ord : List (Tree ℕ ℝ d × Tree ℕ ℝ d) → List (Tree ℕ ℝ d × Tree ℕ ℝ d)) (hord : ∀ l, (ord l).Perm l) (who : ℕ → ℕ)
    (beta : ℕ) (rhoLo rhoHi : WithTop ℝ) :
    ∃ es, (∀ s : Sched d, s.ord = ord → getPass pos s beta rhoLo rhoHi t = .ok (s.buf es)) ∧
      FJ.Emits (bufPush who 24) (wspdParallelG (getStart rhoLo) (getMoveon rhoLo rhoHi) (geomWellSeparated 2)
        (getRunP pos ord who beta rhoLo rhoHi) t) es := by
  have hnd : t.tree.items.Nodup := hp.nodup_iff.mpr List.nodup_range
  obtain ⟨out0, h1, h2, h3⟩ := wspdSerial_ok (geomWellSeparated 2) t.tree
    (fun bu iu bv iv hu hv => geomWellSeparated_leaf (hs.below hu) (hs.below hv)) hs.singleLeaves hnd
  obtain ⟨L2, g1, g2, g3⟩ := wspdParallelF_spec (getStart rhoLo) (getMoveon rhoLo rhoHi)
    (getMoveon rhoLo rhoHi) (geomWellSeparated 2) t out0 h1
  have hL2 : ∀ p ∈ L2, treePair p ∈ out0 := fun p hp => g2.subset (List.mem_map_of_mem hp)
  have hrun : ∀ p : NTree ℕ ℝ d × NTree ℕ ℝ d, ∃ y, p ∈ L2 → getRun pos ord beta rhoLo rhoHi p = .ok y := by
    intro p
    by_cases hp : p ∈ L2
    · obtain ⟨a, -, b, -, -, h | h⟩ := getRun_ok pos ord hord beta rhoLo rhoHi p
        (hs.below (h2 _ (hL2 p hp)).2.1) (hs.below (h2 _ (hL2 p hp)).2.2.1)
      · exact ⟨_, fun _ => h.2.2.2⟩
      · exact ⟨_, fun _ => h.2⟩
    · exact ⟨none, fun h => absurd h hp⟩
  choose g hg using hrun
  refine ⟨(L2.map g).filterMap fun e => e, ?_, ?_⟩
  · rintro s rfl
    unfold getPass
    rw [g1]
    simp only [Except.bind]
    rw [mapM_map _ g L2 fun x hx => hg x hx]
    rfl
  · have := emits_wspdParallelG (E := bufPush who 24) (run := getRunP pos ord who beta rhoLo rhoHi)
      (em := fun p => (g p).toList) t L2 g1 (by
        intro p hp
        unfold getRunP
        rw [hg p hp]
        cases g p with
        | none => rfl
        | some e => exact emits_pushP who 24 e)
    refine this.perm (.of_eq ?_)
    rw [List.filterMap_map]
    clear * -
    induction L2 with
    | nil => rfl
    | cons p L ih =>
      rw [List.flatMap_cons, ← ih, List.filterMap_cons]
      simp only [Function.comp]
      cases g p <;> rfl

/-- With enough points for the workers the second traversal is the one of the function model, up to the order of the
edges. -/
theorem getBuf_ok (env : BufEnv (WEdge ℝ)) (P : ℕ) (hw : ∀ i, env.who i < P) (hc : ∀ l, (env.copy l).Perm l)
    (ord : List (Tree ℕ ℝ d × Tree ℕ ℝ d) → List (Tree ℕ ℝ d × Tree ℕ ℝ d)) (hord : ∀ l, (ord l).Perm l)
    (pos : ℕ → Point ℝ d) (n : ℕ) (hP : P ≤ n) (t : NTree ℕ ℝ d) (hs : Sound pos 1 t.tree)
    (hp : t.tree.items.Perm (List.range n)) (beta : ℕ) (rhoLo rhoHi : WithTop ℝ) :
    ∃ s : Sched d, s.OrdOk ∧ getBuf env P ord pos beta rhoLo rhoHi t = getPass pos s beta rhoLo rhoHi t := by
  classical
  obtain ⟨es, h1, h2⟩ := emits_getBuf pos n t hs hp ord hord env.who beta rhoLo rhoHi
  have hsz : t.size = n := by
    unfold NTree.size
    rw [size_eq, hp.length_eq, List.length_range]
  obtain ⟨out, h3, h4⟩ := bufRun_ok env (n := t.size) (hsz.symm ▸ hP) (by norm_num) hw hc h2
  refine ⟨⟨fun _ _ _ _ => ⊤, fun _ _ _ _ => ⊤, ord, fun l => if l = es then out else l,
    ⟨fun _ l => l, fun _ l => l, fun _ _ _ => .same⟩⟩, ⟨hord, fun l => ?_⟩, ?_⟩
  · by_cases hl : l = es
    · simp only [if_pos hl]
      rw [hl]
      exact h4
    · simp only [if_neg hl]
      exact .refl _
  · rw [h1 _ rfl]
    simp only [if_true]
    exact h3

/-- With fewer points than workers the second traversal finds nothing or is undefined. -/
theorem getBuf_small (env : BufEnv (WEdge ℝ)) (P : ℕ) (hc : ∀ l, (env.copy l).Perm l)
    (ord : List (Tree ℕ ℝ d × Tree ℕ ℝ d) → List (Tree ℕ ℝ d × Tree ℕ ℝ d)) (hord : ∀ l, (ord l).Perm l)
    (pos : ℕ → Point ℝ d) (n : ℕ) (hP : n < P) (t : NTree ℕ ℝ d) (hs : Sound pos 1 t.tree)
    (hp : t.tree.items.Perm (List.range n)) (beta : ℕ) (rhoLo rhoHi : WithTop ℝ) (s : Sched d) (hso : s.ord = ord)
    (hsb : ∀ l, (s.buf l).Perm l) (edges : List (WEdge ℝ)) (he : getPass pos s beta rhoLo rhoHi t = .ok edges) :
    getBuf env P ord pos beta rhoLo rhoHi t = if edges.length ≤ 0 then .ok [] else .error .ub := by
  obtain ⟨es, h1, h2⟩ := emits_getBuf pos n t hs hp ord hord env.who beta rhoLo rhoHi
  have hsz : t.size = n := by
    unfold NTree.size
    rw [size_eq, hp.length_eq, List.length_range]
  rw [h1 s hso] at he
  cases he
  rw [(hsb es).length_eq]
  cases es with
  | nil => exact bufRun_nil env hc h2
  | cons e es => exact bufRun_ub env (hsz.symm ▸ hP) h2 (by simp)

end Verif.Emst
