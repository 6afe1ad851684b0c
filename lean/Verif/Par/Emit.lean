import Verif.Par.ForkJoin
import Mathlib.Data.List.Perm.Basic

set_option linter.unusedSectionVars false
set_option linter.unusedVariables false

/-!
Fork-join programs whose only accesses append elements to a shared collection, as the traversals that push to the per-worker
buffers (`include/kdTree/wspdImpl.h:168-173`): under every schedule the appended elements are the same up to order.
-/

namespace Verif.ForkJoin

namespace FJ

variable {σ β R : Type}

/-- `p` performs the accesses `E x` for the elements `x` of `l`, in some order that depends on the schedule, if all of them
answer `none`; an answer `some e` ends the part with the error `e`. -/
def Emits (E : β → σ → Option Err × σ) : FJ σ (Option Err) R → List β → Prop
  | ret _, l => l = []
  | err _, _ => False
  | act f k, l => ∃ x l', f = E x ∧ (∀ e, k (some e) = err e) ∧ Emits E (k none) l' ∧ l.Perm (x :: l')
  | par p q k, l => ∃ l1 l2 l3, Emits E p l1 ∧ Emits E q l2 ∧ (∀ a b, Emits E (k a b) l3) ∧
      l.Perm (l1 ++ l2 ++ l3)

variable {E : β → σ → Option Err × σ}

theorem Emits.perm {p : FJ σ (Option Err) R} {l l' : List β} (h : Emits E p l) (hl : l'.Perm l) : Emits E p l' := by
  cases p with
  | ret r => cases (show l = [] from h); exact hl.eq_nil
  | err e => exact h.elim
  | act f k =>
    obtain ⟨x, l1, h1, h2, h3, h4⟩ := h
    exact ⟨x, l1, h1, h2, h3, hl.trans h4⟩
  | par p q k =>
    obtain ⟨l1, l2, l3, h1, h2, h3, h4⟩ := h
    exact ⟨l1, l2, l3, h1, h2, h3, hl.trans h4⟩

theorem Emits.bind {p : FJ σ (Option Err) R} {h : R → FJ σ (Option Err) R} {l1 l2 : List β} (h1 : Emits E p l1)
    (h2 : ∀ r, Emits E (h r) l2) : Emits E (p.bind h) (l1 ++ l2) := by
  induction p generalizing l1 with
  | ret r => cases (show l1 = [] from h1); exact h2 r
  | err e => exact h1.elim
  | act f k ih =>
    obtain ⟨x, l', g1, g2, g3, g4⟩ := h1
    exact ⟨x, l' ++ l2, g1, fun e => by simp only [g2]; rfl, ih none g3, g4.append_right l2⟩
  | par p q k _ _ ih =>
    obtain ⟨a1, a2, a3, g1, g2, g3, g4⟩ := h1
    refine ⟨a1, a2, a3 ++ l2, g1, g2, fun a b => ih a b (g3 a b), ?_⟩
    rw [← List.append_assoc]
    exact g4.append_right l2

/-- One step appends at most one element. -/
theorem Emits.step {I : List β → σ → Prop} (hI : ∀ tr s x, I tr s → (E x s).1 = none ∧ I (tr ++ [x]) (E x s).2)
    (w : List Bool) {p : FJ σ (Option Err) R} {l tr : List β} {s : σ} (h : Emits E p l) (hs : I tr s) :
    ∃ tr' l', I (tr ++ tr') (step w p s).2 ∧ Emits E (step w p s).1 l' ∧ l.Perm (tr' ++ l') := by
  induction p generalizing w l with
  | ret r => exact ⟨[], l, by rw [List.append_nil]; exact hs, h, .refl _⟩
  | err e => exact h.elim
  | act f k ih =>
    obtain ⟨x, l', rfl, g2, g3, g4⟩ := h
    obtain ⟨h1, h2⟩ := hI tr s x hs
    refine ⟨[x], l', h2, ?_, g4⟩
    show Emits E (k (E x s).1) l'
    rw [h1]
    exact g3
  | par p q k ihp ihq ihk =>
    obtain ⟨l1, l2, l3, g1, g2, g3, g4⟩ := h
    have hleft : ∃ tr' l', I (tr ++ tr') (FJ.step w.tail p s).2 ∧ Emits E (par (FJ.step w.tail p s).1 q k) l' ∧
        l.Perm (tr' ++ l') := by
      obtain ⟨tr', l', k1, k2, k3⟩ := ihp w.tail g1
      refine ⟨tr', l' ++ l2 ++ l3, k1, ⟨l', l2, l3, k2, g2, g3, .refl _⟩, g4.trans ?_⟩
      rw [← List.append_assoc, ← List.append_assoc]
      exact (k3.append_right l2).append_right l3
    have hright : ∃ tr' l', I (tr ++ tr') (FJ.step w.tail q s).2 ∧ Emits E (par p (FJ.step w.tail q s).1 k) l' ∧
        l.Perm (tr' ++ l') := by
      obtain ⟨tr', l', k1, k2, k3⟩ := ihq w.tail g2
      refine ⟨tr', l1 ++ l' ++ l3, k1, ⟨l1, l', l3, g1, k2, g3, .refl _⟩, g4.trans ?_⟩
      rw [← List.append_assoc, ← List.append_assoc]
      refine List.Perm.append_right l3 ((k3.append_left l1).trans ?_)
      rw [← List.append_assoc]
      exact List.perm_append_comm.append_right l'
    unfold FJ.step
    split
    · rename_i e hp
      rw [fin_err hp] at g1
      exact g1.elim
    · rename_i e hq _
      rw [fin_err hq] at g2
      exact g2.elim
    · rename_i a b hp hq
      rw [fin_ret hp] at g1
      rw [fin_ret hq] at g2
      cases (show l1 = [] from g1)
      cases (show l2 = [] from g2)
      exact ⟨[], l3, by rw [List.append_nil]; exact hs, g3 a b, g4⟩
    · exact hright
    · exact hleft
    · split
      · exact hleft
      · exact hright

/-- If the accesses never fail, every schedule appends a permutation of `l`. -/
theorem Emits.run {I : List β → σ → Prop} (hI : ∀ tr s x, I tr s → (E x s).1 = none ∧ I (tr ++ [x]) (E x s).2)
    (w : ℕ → List Bool) {p : FJ σ (Option Err) R} {l tr : List β} {s : σ} (h : Emits E p l) (hs : I tr s) (i : ℕ) :
    ∃ r s' l', FJ.run w i p s = .ok (r, s') ∧ l'.Perm l ∧ I (tr ++ l') s' := by
  induction (next_acc p) generalizing i l tr s with
  | intro p _ ih =>
    unfold FJ.run
    split
    · rename_i r hp
      rw [fin_ret hp] at h
      cases (show l = [] from h)
      exact ⟨r, s, [], rfl, .refl _, by rw [List.append_nil]; exact hs⟩
    · rename_i e hp
      rw [fin_err hp] at h
      exact h.elim
    · rename_i hp
      obtain ⟨tr', l', g1, g2, g3⟩ := h.step hI (w i) hs
      obtain ⟨r, s', l2, k1, k2, k3⟩ := ih _ (step_next (w i) p s hp) g2 g1 (i + 1)
      refine ⟨r, s', tr' ++ l2, k1, (k2.append_left tr').trans g3.symm, ?_⟩
      rw [← List.append_assoc]
      exact k3

/-- Every access of `p` fails with the error `e` in the states of `B`, so `p` ends with this error (surely if `b`) or without
an access. -/
def Dies (B : σ → Prop) (e : Err) : Bool → FJ σ (Option Err) R → Prop
  | b, ret _ => b = false
  | _, err e' => e' = e
  | _, act f k => ∀ s, B s → (f s).2 = s ∧ k (f s).1 = err e
  | b, par p q k => ∃ b1 b2 b3, Dies B e b1 p ∧ Dies B e b2 q ∧ (∀ x y, Dies B e b3 (k x y)) ∧
      (b = true → b1 = true ∨ b2 = true ∨ b3 = true)

theorem Emits.dies {B : σ → Prop} {e : Err} (hB : ∀ s x, B s → E x s = (some e, s)) {p : FJ σ (Option Err) R}
    {l : List β} (h : Emits E p l) : Dies B e (!l.isEmpty) p := by
  induction p generalizing l with
  | ret r => cases (show l = [] from h); rfl
  | err e => exact h.elim
  | act f k ih =>
    obtain ⟨x, l', rfl, g2, g3, g4⟩ := h
    intro s hs
    rw [hB s x hs]
    exact ⟨rfl, g2 e⟩
  | par p q k ihp ihq ihk =>
    obtain ⟨l1, l2, l3, g1, g2, g3, g4⟩ := h
    refine ⟨_, _, _, ihp g1, ihq g2, fun x y => ihk x y (g3 x y), fun hl => ?_⟩
    cases l1 with
    | cons => left; rfl
    | nil =>
      cases l2 with
      | cons => right; left; rfl
      | nil =>
        cases l3 with
        | cons => right; right; rfl
        | nil => rw [g4.eq_nil] at hl; exact absurd hl (by simp)

theorem Dies.step {B : σ → Prop} {e : Err} (w : List Bool) {b : Bool} {p : FJ σ (Option Err) R} {s : σ} (hs : B s)
    (h : Dies B e b p) : (FJ.step w p s).2 = s ∧ Dies B e b (FJ.step w p s).1 := by
  induction p generalizing w b with
  | ret r => exact ⟨rfl, h⟩
  | err e' => exact ⟨rfl, h⟩
  | act f k ih =>
    obtain ⟨h1, h2⟩ := h s hs
    refine ⟨h1, ?_⟩
    show Dies B e b (k (f s).1)
    rw [h2]
    exact rfl
  | par p q k ihp ihq ihk =>
    obtain ⟨b1, b2, b3, g1, g2, g3, g4⟩ := h
    obtain ⟨p1, p2⟩ := ihp w.tail g1
    obtain ⟨q1, q2⟩ := ihq w.tail g2
    have hleft : (FJ.step w.tail p s).2 = s ∧ Dies B e b (par (FJ.step w.tail p s).1 q k) :=
      ⟨p1, b1, b2, b3, p2, g2, g3, g4⟩
    have hright : (FJ.step w.tail q s).2 = s ∧ Dies B e b (par p (FJ.step w.tail q s).1 k) :=
      ⟨q1, b1, b2, b3, g1, q2, g3, g4⟩
    unfold FJ.step
    split
    · rename_i e' hp
      rw [fin_err hp] at g1
      exact ⟨rfl, g1⟩
    · rename_i e' hq _
      rw [fin_err hq] at g2
      exact ⟨rfl, g2⟩
    · rename_i x y hp hq
      rw [fin_ret hp] at g1
      rw [fin_ret hq] at g2
      refine ⟨rfl, ?_⟩
      have e1 : b1 = false := g1
      have e2 : b2 = false := g2
      subst e1 e2
      cases b with
      | true =>
        have : b3 = true := by simpa using g4 rfl
        rw [← this]
        exact g3 x y
      | false =>
        cases b3 with
        | false => exact g3 x y
        | true =>
          have := g3 x y
          revert this
          generalize k x y = p
          intro h
          clear * - h
          induction p with
          | ret r => rfl
          | err e' => exact h
          | act f k _ => exact h
          | par p q k _ _ _ =>
            obtain ⟨b1, b2, b3, g1, g2, g3, g4⟩ := h
            exact ⟨b1, b2, b3, g1, g2, g3, fun h => by cases h⟩
    · exact hright
    · exact hleft
    · split
      · exact hleft
      · exact hright

theorem Dies.run {B : σ → Prop} {e : Err} (w : ℕ → List Bool) {p : FJ σ (Option Err) R} {s : σ} (hs : B s)
    (h : Dies B e true p) (i : ℕ) : FJ.run w i p s = .error e := by
  induction (next_acc p) generalizing i with
  | intro p _ ih =>
    unfold FJ.run
    split
    · rename_i r hp
      rw [fin_ret hp] at h
      cases (show true = false from h)
    · rename_i e' hp
      rw [fin_err hp] at h
      rw [show e' = e from h]
    · rename_i hp
      obtain ⟨g1, g2⟩ := h.step (w i) hs
      rw [g1]
      exact ih _ (step_next (w i) p s hp) g2 (i + 1)

/-- If every access fails with `e`, every schedule of a program that appends something ends with `e`. -/
theorem Emits.run_error {B : σ → Prop} {e : Err} (hB : ∀ s x, B s → E x s = (some e, s)) (w : ℕ → List Bool)
    {p : FJ σ (Option Err) R} {l : List β} (h : Emits E p l) (hl : l ≠ []) {s : σ} (hs : B s) (i : ℕ) :
    FJ.run w i p s = .error e := by
  have := h.dies hB
  rw [show (!l.isEmpty) = true by simp [hl]] at this
  exact this.run w hs i

end FJ

end Verif.ForkJoin
