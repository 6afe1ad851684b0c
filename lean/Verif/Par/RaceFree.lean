import Verif.Par.ForkJoin

set_option linter.unusedSectionVars false
set_option linter.unusedVariables false

/-!
Fork-join programs without races. If the accesses of the two branches of every `par_do` commute, every schedule has the outcome
of the sequential execution.
-/

namespace Verif.ForkJoin

namespace FJ

variable {σ V R : Type}

/-- The sequential execution: at a `par` the left branch first (`include/batchKdtree/shared/dual.h:137-151,216-226`: the branch
without `parlay::par_do`). -/
def seq : FJ σ V R → σ → Except Err (R × σ)
  | ret r, s => .ok (r, s)
  | err e, _ => .error e
  | act f k, s => seq (k (f s).1) (f s).2
  | par p q k, s => (seq p s).bind fun x => (seq q x.2).bind fun y => seq (k x.1 y.1) y.2

/-- Two accesses that can be exchanged. -/
def Comm (f g : σ → V × σ) : Prop :=
  ∀ s, (f (g s).2).1 = (f s).1 ∧ (g (f s).2).1 = (g s).1 ∧ (f (g s).2).2 = (g (f s).2).2

/-- `p` makes accesses of the class `A` only, what it returns satisfies `P`, and at every `par` the classes of the two branches
commute. -/
def rf : FJ σ V R → ((σ → V × σ) → Prop) → (R → Prop) → Prop
  | ret r, _, P => P r
  | err _, _, _ => True
  | act f k, A, P => A f ∧ ∀ s, rf (k (f s).1) A P
  | par p q k, A, P => ∃ (A1 A2 : (σ → V × σ) → Prop) (P1 P2 : R → Prop), (∀ f, A1 f → A f) ∧ (∀ f, A2 f → A f) ∧
      (∀ f g, A1 f → A2 g → Comm f g) ∧ rf p A1 P1 ∧ rf q A2 P2 ∧ ∀ a b, P1 a → P2 b → rf (k a b) A P

theorem rf_mono {p : FJ σ V R} {A B : (σ → V × σ) → Prop} {P : R → Prop} (h : rf p A P) (hab : ∀ f, A f → B f) : rf p B P := by
  induction p generalizing A B P with
  | ret r => exact h
  | err e => trivial
  | act f k ih => exact ⟨hab _ h.1, fun s => ih _ (h.2 s) hab⟩
  | par p q k ihp ihq ihk =>
    obtain ⟨A1, A2, P1, P2, h1, h2, h3, h4, h5, h6⟩ := h
    exact ⟨A1, A2, P1, P2, fun f hf => hab _ (h1 f hf), fun f hf => hab _ (h2 f hf), h3, h4, h5,
      fun a b ha hb => ihk a b (h6 a b ha hb) hab⟩

theorem rf_bind {p : FJ σ V R} {h : R → FJ σ V R} {A : (σ → V × σ) → Prop} {P Q : R → Prop} (hp : rf p A P)
    (hh : ∀ r, P r → rf (h r) A Q) : rf (bind p h) A Q := by
  induction p generalizing A P Q with
  | ret r => exact hh r hp
  | err e => trivial
  | act f k ih => exact ⟨hp.1, fun s => ih _ (hp.2 s) hh⟩
  | par p q k ihp ihq ihk =>
    obtain ⟨A1, A2, P1, P2, h1, h2, h3, h4, h5, h6⟩ := hp
    exact ⟨A1, A2, P1, P2, h1, h2, h3, h4, h5, fun a b ha hb => ihk a b (h6 a b ha hb) hh⟩

theorem seq_bind (p : FJ σ V R) (h : R → FJ σ V R) (s : σ) :
    seq (bind p h) s = (seq p s).bind fun x => seq (h x.1) x.2 := by
  induction p generalizing s with
  | ret r => rfl
  | err e => rfl
  | act f k ih => exact ih _ _
  | par p q k ihp ihq ihk =>
    simp only [bind, seq]
    cases seq p s with
    | error e => rfl
    | ok x =>
      simp only [Except.bind]
      cases seq q x.2 with
      | error e => rfl
      | ok y => exact ihk _ _ _

/-- An access that commutes with all accesses of `p` can be made before `p` instead of after it. -/
theorem seq_comm {f : σ → V × σ} {p : FJ σ V R} {A : (σ → V × σ) → Prop} {P : R → Prop} (hp : rf p A P)
    (hc : ∀ g, A g → Comm g f) {s s1 : σ} {a : R} (h : seq p s = .ok (a, s1)) :
    (f s1).1 = (f s).1 ∧ seq p (f s).2 = .ok (a, (f s1).2) ∧ P a := by
  induction p generalizing A P s s1 a with
  | ret r =>
    simp only [seq, Except.ok.injEq, Prod.mk.injEq] at h
    obtain ⟨rfl, rfl⟩ := h
    exact ⟨rfl, rfl, hp⟩
  | err e => cases h
  | act g k ih =>
    obtain ⟨c1, c2, c3⟩ := hc g hp.1 s
    simp only [seq] at h ⊢
    obtain ⟨i1, i2, i3⟩ := ih _ (hp.2 s) hc h
    rw [c1, c3, i1, c2]
    exact ⟨rfl, i2, i3⟩
  | par p q k ihp ihq ihk =>
    obtain ⟨A1, A2, P1, P2, h1, h2, h3, h4, h5, h6⟩ := hp
    simp only [seq] at h ⊢
    cases hx : seq p s with
    | error e => rw [hx] at h; cases h
    | ok x =>
      rw [hx] at h
      simp only [Except.bind] at h
      cases hy : seq q x.2 with
      | error e => rw [hy] at h; cases h
      | ok y =>
        rw [hy] at h
        simp only at h
        obtain ⟨i1, i2, i3⟩ := ihp h4 (fun g hg => hc g (h1 g hg)) (s1 := x.2) (a := x.1) hx
        obtain ⟨j1, j2, j3⟩ := ihq h5 (fun g hg => hc g (h2 g hg)) (s1 := y.2) (a := y.1) hy
        obtain ⟨l1, l2, l3⟩ := ihk _ _ (h6 _ _ i3 j3) hc h
        rw [i2]
        simp only [Except.bind]
        rw [j2]
        exact ⟨by rw [l1, j1, i1], l2, l3⟩

/-- A step is an access of the program or leaves the state as it is; which one does not depend on the state. -/
theorem step_form {p : FJ σ V R} {A : (σ → V × σ) → Prop} {P : R → Prop} (hp : rf p A P) (w : List Bool) :
    (∃ p', ∀ s, step w p s = (p', s)) ∨ ∃ (f : σ → V × σ) (h : V → FJ σ V R), A f ∧ ∀ s, step w p s = (h (f s).1, (f s).2) := by
  induction p generalizing w A P with
  | ret r => exact .inl ⟨_, fun s => rfl⟩
  | err e => exact .inl ⟨_, fun s => rfl⟩
  | act f k ih => exact .inr ⟨f, k, hp.1, fun s => rfl⟩
  | par p q k ihp ihq ihk =>
    obtain ⟨A1, A2, P1, P2, h1, h2, h3, h4, h5, h6⟩ := hp
    have hl : ((∃ p', ∀ s, (par (step w.tail p s).1 q k, (step w.tail p s).2) = (p', s)) ∨
        ∃ (f : σ → V × σ) (h : V → FJ σ V R), A f ∧ ∀ s, (par (step w.tail p s).1 q k, (step w.tail p s).2) = (h (f s).1, (f s).2)) := by
      rcases ihp h4 w.tail with ⟨p', hp'⟩ | ⟨f, h, hf, hs⟩
      · exact .inl ⟨par p' q k, fun s => by rw [hp']⟩
      · exact .inr ⟨f, fun v => par (h v) q k, h1 f hf, fun s => by rw [hs]⟩
    have hr : ((∃ p', ∀ s, (par p (step w.tail q s).1 k, (step w.tail q s).2) = (p', s)) ∨
        ∃ (f : σ → V × σ) (h : V → FJ σ V R), A f ∧ ∀ s, (par p (step w.tail q s).1 k, (step w.tail q s).2) = (h (f s).1, (f s).2)) := by
      rcases ihq h5 w.tail with ⟨p', hp'⟩ | ⟨f, h, hf, hs⟩
      · exact .inl ⟨par p p' k, fun s => by rw [hp']⟩
      · exact .inr ⟨f, fun v => par p (h v) k, h2 f hf, fun s => by rw [hs]⟩
    unfold step
    split
    · exact .inl ⟨_, fun s => rfl⟩
    · exact .inl ⟨_, fun s => rfl⟩
    · exact .inl ⟨_, fun s => rfl⟩
    · exact hr
    · exact hl
    · split
      · exact hl
      · exact hr

theorem seq_fin_err {p : FJ σ V R} {s : σ} {x : R × σ} {e : Err} (h : seq p s = .ok x) (hf : fin p = some (.error e)) : False := by
  rw [fin_err hf] at h
  cases h

/-- A step does not change the sequential outcome. -/
theorem step_seq (w : List Bool) {p : FJ σ V R} {A : (σ → V × σ) → Prop} {P : R → Prop} (hp : rf p A P) {s : σ} {x : R × σ}
    (h : seq p s = .ok x) :
    rf (step w p s).1 A P ∧ seq (step w p s).1 (step w p s).2 = .ok x ∧ P x.1 := by
  induction p generalizing w A P s x with
  | ret r =>
    refine ⟨hp, h, ?_⟩
    simp only [seq, Except.ok.injEq] at h
    exact h ▸ hp
  | err e => cases h
  | act f k ih => exact ⟨hp.2 s, h, (ih _ [] (hp.2 s) h).2.2⟩
  | par p q k ihp ihq ihk =>
    obtain ⟨A1, A2, P1, P2, h1, h2, h3, h4, h5, h6⟩ := hp
    simp only [seq] at h
    cases hx : seq p s with
    | error e => rw [hx] at h; cases h
    | ok x1 =>
      rw [hx] at h
      simp only [Except.bind] at h
      cases hy : seq q x1.2 with
      | error e => rw [hy] at h; cases h
      | ok y1 =>
        rw [hy] at h
        simp only at h
        have hP1 := (ihp [] h4 hx).2.2
        have hP2 := (ihq [] h5 hy).2.2
        have hk := ihk _ _ [] (h6 _ _ hP1 hP2) h
        have hl : rf (par (step w.tail p s).1 q k) A P ∧
            seq (par (step w.tail p s).1 q k) (step w.tail p s).2 = .ok x ∧ P x.1 := by
          obtain ⟨g1, g2, g3⟩ := ihp w.tail h4 hx
          refine ⟨⟨A1, A2, P1, P2, h1, h2, h3, g1, h5, h6⟩, ?_, hk.2.2⟩
          simp only [seq, g2, Except.bind, hy]
          exact h
        have hr : rf (par p (step w.tail q s).1 k) A P ∧
            seq (par p (step w.tail q s).1 k) (step w.tail q s).2 = .ok x ∧ P x.1 := by
          have g := ihq w.tail h5 hy
          rcases step_form h5 w.tail with ⟨q', hq'⟩ | ⟨f, h', hf, hs⟩
          · rw [hq'] at g ⊢
            refine ⟨⟨A1, A2, P1, P2, h1, h2, h3, h4, g.1, h6⟩, ?_, hk.2.2⟩
            simp only [seq, hx, Except.bind]
            simp only at g
            rw [g.2.1]
            exact h
          · obtain ⟨c1, c2, c3⟩ := seq_comm (f := f) h4 (fun g hg => h3 g f hg hf) (s1 := x1.2) (a := x1.1) hx
            rw [hs] at g ⊢
            simp only at g ⊢
            rw [c1] at g
            refine ⟨⟨A1, A2, P1, P2, h1, h2, h3, h4, g.1, h6⟩, ?_, hk.2.2⟩
            simp only [seq, c2, Except.bind, g.2.1]
            exact h
        unfold step
        split
        · rename_i e he
          exact (seq_fin_err hx he).elim
        · rename_i e he _
          exact (seq_fin_err hy he).elim
        · rename_i a b ha hb
          rw [fin_ret ha] at hx
          rw [fin_ret hb] at hy
          simp only [seq, Except.ok.injEq] at hx hy
          subst hx
          simp only at hy
          subst hy
          simp only at h hP1 hP2 ⊢
          exact ⟨h6 _ _ hP1 hP2, h, hk.2.2⟩
        · exact hr
        · exact hl
        · split
          · exact hl
          · exact hr

/-- A program without races that ends without error when executed sequentially has the same outcome under every schedule. -/
theorem run_seq (sch : ℕ → List Bool) {p : FJ σ V R} {A : (σ → V × σ) → Prop} {P : R → Prop} (hp : rf p A P) {s : σ}
    {x : R × σ} (h : seq p s = .ok x) (i : ℕ) : run sch i p s = .ok x := by
  induction (next_acc p) generalizing i s with
  | intro p _ ih =>
    unfold run
    split
    · rename_i r hf
      rw [fin_ret hf] at h
      exact h
    · rename_i e hf
      exact (seq_fin_err h hf).elim
    · rename_i hf
      obtain ⟨g1, g2, -⟩ := step_seq (sch i) hp h
      exact ih _ (step_next (sch i) p s hf) g1 g2 (i + 1)

end FJ

end Verif.ForkJoin
