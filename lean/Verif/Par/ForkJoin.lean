import Verif.Outcome
import Mathlib.Data.Nat.Notation

set_option linter.unusedSectionVars false
set_option linter.unusedVariables false

/-!
Fork-join programs over shared memory, executed access by access under any schedule: `parlay::par_do`
(`src/euclideanMst/memoGfk/mark.h:12,41`, `include/kdTree/wspdImpl.h:212-238,253`). Used for traversals of trees whose branches
share variables.
-/

namespace Verif.ForkJoin

/-- A fork-join program with shared state `σ`; every access returns a `V`, every part returns an `R`. `act` is one access to
the shared state, `par` a `parlay::par_do` (`include/kdTree/wspdImpl.h:212-238,253-256`) followed by the rest of the
program. -/
inductive FJ (σ V R : Type)
  | ret (r : R)
  | err (e : Err)
  | act (f : σ → V × σ) (k : V → FJ σ V R)
  | par (p q : FJ σ V R) (k : R → R → FJ σ V R)

namespace FJ

variable {σ V R : Type}

/-- One part of a program after another, as in `include/kdTree/wspdImpl.h:88-113` (the two recursive calls of
`findPairSerial`). -/
def bind : FJ σ V R → (R → FJ σ V R) → FJ σ V R
  | ret r, h => h r
  | err e, _ => err e
  | act f k, h => act f fun v => bind (k v) h
  | par p q k, h => par p q fun a b => bind (k a b) h

/-- The outcome of a program that has finished (`include/kdTree/wspdImpl.h:212-238`, the end of a branch). -/
def fin : FJ σ V R → Option (Except Err R)
  | ret r => some (.ok r)
  | err e => some (.error e)
  | _ => none

/-- One step: one access of one of the running threads, or the join of two finished branches
(`include/kdTree/wspdImpl.h:212-238,253-256`). The list says which branch moves at every `par` on the way to the thread; a
finished branch lets the other one move. An exception in a branch ends the program. -/
def step : List Bool → FJ σ V R → σ → FJ σ V R × σ
  | _, ret r, s => (ret r, s)
  | _, err e, s => (err e, s)
  | _, act f k, s => (k (f s).1, (f s).2)
  | w, par p q k, s =>
    match fin p, fin q with
    | some (.error e), _ => (err e, s)
    | _, some (.error e) => (err e, s)
    | some (.ok a), some (.ok b) => (k a b, s)
    | some (.ok _), none => (par p (step w.tail q s).1 k, (step w.tail q s).2)
    | none, some (.ok _) => (par (step w.tail p s).1 q k, (step w.tail p s).2)
    | none, none =>
      if w.headD true then (par (step w.tail p s).1 q k, (step w.tail p s).2)
      else (par p (step w.tail q s).1 k, (step w.tail q s).2)

/-- Possible programs after a step, whatever the values read. -/
inductive Next : FJ σ V R → FJ σ V R → Prop
  | act (f : σ → V × σ) (k : V → FJ σ V R) (v : V) : Next (k v) (act f k)
  | left {p' p : FJ σ V R} (q : FJ σ V R) (k : R → R → FJ σ V R) : Next p' p → Next (par p' q k) (par p q k)
  | right {q' q : FJ σ V R} (p : FJ σ V R) (k : R → R → FJ σ V R) : Next q' q → Next (par p q' k) (par p q k)
  | join (p q : FJ σ V R) (k : R → R → FJ σ V R) (a b : R) : Next (k a b) (par p q k)
  | abort (p q : FJ σ V R) (k : R → R → FJ σ V R) (e : Err) : Next (err e) (par p q k)

theorem next_acc (p : FJ σ V R) : Acc Next p := by
  have herr : ∀ e : Err, Acc Next (err e : FJ σ V R) := fun e => ⟨_, fun y h => by cases h⟩
  induction p with
  | ret r => exact ⟨_, fun y h => by cases h⟩
  | err e => exact herr e
  | act f k ih => exact ⟨_, fun y h => by cases h; exact ih _⟩
  | par p q k ihp ihq ihk =>
    induction ihp generalizing q with
    | intro p _ ih1 =>
      induction ihq with
      | intro q hq ih2 =>
        refine ⟨_, fun y h => ?_⟩
        cases h with
        | left _ _ h => exact ih1 _ h q ⟨_, hq⟩
        | right _ _ h => exact ih2 _ h
        | join _ _ _ a b => exact ihk a b
        | abort _ _ _ e => exact herr e

instance : WellFoundedRelation (FJ σ V R) := ⟨Next, ⟨next_acc⟩⟩

theorem step_next (w : List Bool) (p : FJ σ V R) (s : σ) (h : fin p = none) : Next (step w p s).1 p := by
  induction p generalizing w s with
  | ret r => cases h
  | err e => cases h
  | act f k ih => exact .act f k _
  | par p q k ihp ihq ihk =>
    unfold step
    split
    · exact .abort ..
    · exact .abort ..
    · exact .join ..
    · rename_i hq; exact .right _ _ (ihq _ _ hq)
    · rename_i hp _; exact .left _ _ (ihp _ _ hp)
    · rename_i hp hq
      split
      · exact .left _ _ (ihp _ _ hp)
      · exact .right _ _ (ihq _ _ hq)

/-- The execution under a schedule: step `i` is taken by the thread that `sch i` selects
(`include/kdTree/wspdImpl.h:245-261`). Every execution ends, because programs have no cycles; loops whose length depends on
the other threads carry fuel. -/
def run (sch : ℕ → List Bool) (i : ℕ) (p : FJ σ V R) (s : σ) : Except Err (R × σ) :=
  match h : fin p with
  | some (.ok r) => .ok (r, s)
  | some (.error e) => .error e
  | none => run sch (i + 1) (step (sch i) p s).1 (step (sch i) p s).2
termination_by p
decreasing_by exact step_next _ _ _ h

/-! ### Rely-guarantee reasoning -/

/-- Sufficient condition for `p`, started in a state from which the others move along `G` within `I`, to end without error
in `Q`. -/
def wp (I : σ → Prop) (G : σ → σ → Prop) : FJ σ V R → (R → σ → Prop) → σ → Prop
  | ret r, Q, s => ∀ s', G s s' → I s' → Q r s'
  | err _, _, _ => False
  | act f k, Q, s => ∀ s', G s s' → I s' →
      I (f s').2 ∧ G s' (f s').2 ∧ wp I G (k (f s').1) Q (f s').2
  | par p q k, Q, s => ∃ Q1 Q2 : R → σ → Prop, wp I G p Q1 s ∧ wp I G q Q2 s ∧
      ∀ a b s', G s s' → I s' → Q1 a s' → Q2 b s' → wp I G (k a b) Q s'

variable {I : σ → Prop} {G : σ → σ → Prop}

theorem wp_stable (tr : ∀ a b c, G a b → G b c → G a c) {p : FJ σ V R} {Q : R → σ → Prop} {s s' : σ}
    (h : wp I G p Q s) (hg : G s s') : wp I G p Q s' := by
  induction p generalizing Q with
  | ret r => exact fun s2 h2 h3 => h s2 (tr _ _ _ hg h2) h3
  | err e => exact h
  | act f k ih => exact fun s2 h2 h3 => h s2 (tr _ _ _ hg h2) h3
  | par p q k ihp ihq ihk =>
    obtain ⟨Q1, Q2, h1, h2, h3⟩ := h
    exact ⟨Q1, Q2, ihp h1, ihq h2, fun a b s2 h4 => h3 a b s2 (tr _ _ _ hg h4)⟩

theorem wp_post (rf : ∀ a, G a a) (tr : ∀ a b c, G a b → G b c → G a c) {p : FJ σ V R} {Q Q' : R → σ → Prop}
    {s : σ} (h : wp I G p Q s) (hq : ∀ r s', G s s' → I s' → Q r s' → Q' r s') : wp I G p Q' s := by
  induction p generalizing Q Q' s with
  | ret r => exact fun s2 h2 h3 => hq r s2 h2 h3 (h s2 h2 h3)
  | err e => exact h
  | act f k ih =>
    intro s2 h2 h3
    obtain ⟨g1, g2, g3⟩ := h s2 h2 h3
    exact ⟨g1, g2, ih _ g3 fun r s' h4 h5 h6 => hq r s' (tr _ _ _ h2 (tr _ _ _ g2 h4)) h5 h6⟩
  | par p q k ihp ihq ihk =>
    obtain ⟨Q1, Q2, h1, h2, h3⟩ := h
    exact ⟨Q1, Q2, h1, h2, fun a b s2 h4 h5 h6 h7 =>
      ihk a b (h3 a b s2 h4 h5 h6 h7) fun r s' h8 => hq r s' (tr _ _ _ h4 h8)⟩

theorem wp_bind (rf : ∀ a, G a a) {p : FJ σ V R} {h : R → FJ σ V R} {Q : R → σ → Prop} {s : σ} (hi : I s)
    (hp : wp I G p (fun r s' => wp I G (h r) Q s') s) : wp I G (bind p h) Q s := by
  induction p generalizing s with
  | ret r => exact hp s (rf s) hi
  | err e => exact hp
  | act f k ih =>
    intro s2 h2 h3
    obtain ⟨g1, g2, g3⟩ := hp s2 h2 h3
    exact ⟨g1, g2, ih _ g1 g3⟩
  | par p q k ihp ihq ihk =>
    obtain ⟨Q1, Q2, h1, h2, h3⟩ := hp
    exact ⟨Q1, Q2, h1, h2, fun a b s2 h4 h5 h6 h7 => ihk a b h5 (h3 a b s2 h4 h5 h6 h7)⟩

theorem fin_ret {p : FJ σ V R} {r : R} (h : fin p = some (.ok r)) : p = ret r := by
  cases p <;> simp [fin] at h; exact h ▸ rfl

theorem fin_err {p : FJ σ V R} {e : Err} (h : fin p = some (.error e)) : p = err e := by
  cases p <;> simp [fin] at h; exact h ▸ rfl

theorem wp_step (rf : ∀ a, G a a) (tr : ∀ a b c, G a b → G b c → G a c) (w : List Bool) {p : FJ σ V R}
    {Q : R → σ → Prop} {s : σ} (hi : I s) (h : wp I G p Q s) :
    I (step w p s).2 ∧ G s (step w p s).2 ∧ wp I G (step w p s).1 Q (step w p s).2 := by
  induction p generalizing w Q with
  | ret r => exact ⟨hi, rf s, h⟩
  | err e => exact h.elim
  | act f k ih => exact h s (rf s) hi
  | par p q k ihp ihq ihk =>
    obtain ⟨Q1, Q2, h1, h2, h3⟩ := h
    have hleft : I (step w.tail p s).2 ∧ G s (step w.tail p s).2 ∧
        wp I G (par (step w.tail p s).1 q k) Q (step w.tail p s).2 := by
      obtain ⟨g1, g2, g3⟩ := ihp w.tail h1
      exact ⟨g1, g2, Q1, Q2, g3, wp_stable tr h2 g2, fun a b s2 h4 => h3 a b s2 (tr _ _ _ g2 h4)⟩
    have hright : I (step w.tail q s).2 ∧ G s (step w.tail q s).2 ∧
        wp I G (par p (step w.tail q s).1 k) Q (step w.tail q s).2 := by
      obtain ⟨g1, g2, g3⟩ := ihq w.tail h2
      exact ⟨g1, g2, Q1, Q2, wp_stable tr h1 g2, g3, fun a b s2 h4 => h3 a b s2 (tr _ _ _ g2 h4)⟩
    unfold step
    split
    · rename_i e hp
      rw [fin_err hp] at h1
      exact h1.elim
    · rename_i e hq _
      rw [fin_err hq] at h2
      exact h2.elim
    · rename_i a b hp hq
      rw [fin_ret hp] at h1
      rw [fin_ret hq] at h2
      exact ⟨hi, rf s, h3 a b s (rf s) hi (h1 s (rf s) hi) (h2 s (rf s) hi)⟩
    · exact hright
    · exact hleft
    · split
      · exact hleft
      · exact hright

/-- Every schedule leads to an end in `Q`. -/
theorem run_wp (rf : ∀ a, G a a) (tr : ∀ a b c, G a b → G b c → G a c) (sch : ℕ → List Bool) {p : FJ σ V R}
    {Q : R → σ → Prop} {s : σ} (hi : I s) (h : wp I G p Q s) (i : ℕ) :
    ∃ r s', run sch i p s = .ok (r, s') ∧ Q r s' ∧ I s' ∧ G s s' := by
  induction (next_acc p) generalizing i s with
  | intro p _ ih =>
    unfold run
    split
    · rename_i r hp
      rw [fin_ret hp] at h
      exact ⟨r, s, rfl, h s (rf s) hi, hi, rf s⟩
    · rename_i e hp
      rw [fin_err hp] at h
      exact h.elim
    · rename_i hp
      obtain ⟨g1, g2, g3⟩ := wp_step rf tr (sch i) hi h
      obtain ⟨r, s', k1, k2, k3, k4⟩ := ih _ (step_next (sch i) p s hp) g1 g3 (i + 1)
      exact ⟨r, s', k1, k2, k3, tr _ _ _ g2 k4⟩

end FJ

end Verif.ForkJoin
