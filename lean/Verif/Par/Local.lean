import Verif.Par.RaceFree
import Mathlib.Data.Set.Basic
import Mathlib.Logic.Function.Basic

set_option linter.unusedSectionVars false
set_option linter.unusedVariables false

/-!
Shared memory as a function from locations to contents, accesses that are local to a set of locations, and parallel loops.
Accesses local to disjoint sets commute, so programs whose parallel parts work on disjoint locations have no races.
-/

namespace Verif.ForkJoin

namespace FJ

variable {L V R : Type} {X : L → Type}

/-- The access `f` reads and writes only locations of `S`. -/
def LocalTo (S : Set L) (f : (∀ l, X l) → V × (∀ l, X l)) : Prop :=
  (∀ s l, l ∉ S → (f s).2 l = s l) ∧
  ∀ s s', (∀ l ∈ S, s l = s' l) → (f s).1 = (f s').1 ∧ ∀ l ∈ S, (f s).2 l = (f s').2 l

theorem LocalTo.mono {S T : Set L} {f : (∀ l, X l) → V × (∀ l, X l)} (h : LocalTo S f) (hst : S ⊆ T) : LocalTo T f := by
  refine ⟨fun s l hl => h.1 s l fun hm => hl (hst hm), fun s s' he => ?_⟩
  have hq := h.2 s s' fun l hl => he l (hst hl)
  refine ⟨hq.1, fun l hl => ?_⟩
  by_cases hm : l ∈ S
  · exact hq.2 l hm
  · rw [h.1 s l hm, h.1 s' l hm]
    exact he l hl

theorem LocalTo.comm {S T : Set L} {f g : (∀ l, X l) → V × (∀ l, X l)} (hf : LocalTo S f) (hg : LocalTo T g)
    (hd : ∀ l, l ∈ S → l ∉ T) : Comm f g := by
  intro s
  have h1 := hf.2 (g s).2 s fun l hl => hg.1 s l (hd l hl)
  have h2 := hg.2 (f s).2 s fun l hl => hf.1 s l fun hm => hd l hm hl
  refine ⟨h1.1, h2.1, funext fun l => ?_⟩
  by_cases hS : l ∈ S
  · rw [h1.2 l hS, hg.1 _ l (hd l hS)]
  · by_cases hT : l ∈ T
    · rw [hf.1 _ l hS, h2.2 l hT]
    · rw [hf.1 _ l hS, hg.1 _ l hT, hg.1 _ l hT, hf.1 _ l hS]

/-- A program whose accesses are local to `S` leaves all other locations as they are. -/
theorem seq_frame {p : FJ (∀ l, X l) V R} {S : Set L} {P : R → Prop} (hp : rf p (LocalTo S) P) {s s' : ∀ l, X l} {r : R}
    (h : seq p s = .ok (r, s')) : ∀ l, l ∉ S → s' l = s l := by
  suffices H : ∀ (A : _ → Prop), rf p A P → (∀ f, A f → LocalTo S f) → ∀ l, l ∉ S → s' l = s l from H _ hp fun f hf => hf
  clear hp
  induction p generalizing s s' r P with
  | ret r =>
    intro A hA hS l hl
    simp only [seq, Except.ok.injEq, Prod.mk.injEq] at h
    rw [h.2]
  | err e => cases h
  | act f k ih =>
    intro A hA hS l hl
    rw [ih _ h A (hA.2 s) hS l hl]
    exact (hS f hA.1).1 s l hl
  | par p q k ihp ihq ihk =>
    intro A hA hS l hl
    obtain ⟨A1, A2, P1, P2, h1, h2, h3, h4, h5, h6⟩ := hA
    simp only [seq] at h
    cases hx : seq p s with
    | error e => rw [hx] at h; cases h
    | ok x =>
      rw [hx] at h
      simp only [Except.bind] at h
      cases hy : seq q x.2 with
      | error e => rw [hy] at h; cases h
      | ok y =>
        rw [hy] at h
        simp only at h
        have hP1 := (step_seq [] h4 hx).2.2
        have hP2 := (step_seq [] h5 hy).2.2
        rw [ihk _ _ h A (h6 _ _ hP1 hP2) hS l hl, ihq hy A2 h5 (fun f hf => hS f (h2 f hf)) l hl,
          ihp hx A1 h4 (fun f hf => hS f (h1 f hf)) l hl]

/-- `parlay::parallel_for(lo, lo + n, body)` (`include/kdTree/treeImpl.h:213-220,224-225`, `include/kdTree/kdTree.h:164-165`): all
iterations run in parallel; no iteration returns anything. -/
def parFor {σ : Type} (r0 : R) (body : ℕ → FJ σ V R) : ℕ → ℕ → FJ σ V R
  | _, 0 => .ret r0
  | lo, n + 1 => .par (body lo) (parFor r0 body (lo + 1) n) fun _ _ => .ret r0

theorem rf_parFor {r0 : R} {body : ℕ → FJ (∀ l, X l) V R} {S : ℕ → Set L} {T : Set L} {lo n : ℕ}
    (hb : ∀ i, lo ≤ i → i < lo + n → rf (body i) (LocalTo (S i)) fun _ => True)
    (hd : ∀ i j, i ≠ j → ∀ l, l ∈ S i → l ∉ S j) (hT : ∀ i, lo ≤ i → i < lo + n → S i ⊆ T) :
    rf (parFor r0 body lo n) (LocalTo T) fun _ => True := by
  suffices H : ∀ n lo, (∀ i, lo ≤ i → i < lo + n → rf (body i) (LocalTo (S i)) fun _ => True) →
      rf (parFor r0 body lo n) (LocalTo {l | ∃ i, lo ≤ i ∧ i < lo + n ∧ l ∈ S i}) fun _ => True by
    refine rf_mono (H n lo hb) fun f hf => hf.mono ?_
    rintro l ⟨i, h1, h2, h3⟩
    exact hT i h1 h2 h3
  intro n
  induction n with
  | zero => intro lo _; trivial
  | succ n ih =>
    intro lo hb
    refine ⟨LocalTo (S lo), LocalTo {l | ∃ i, lo + 1 ≤ i ∧ i < lo + 1 + n ∧ l ∈ S i}, fun _ => True, fun _ => True, ?_, ?_, ?_,
      hb lo (le_refl _) (by omega), ih (lo + 1) fun i h1 h2 => hb i (by omega) (by omega), fun _ _ _ _ => trivial⟩
    · exact fun f hf => hf.mono fun l hl => ⟨lo, le_refl _, by omega, hl⟩
    · refine fun f hf => hf.mono ?_
      rintro l ⟨i, h1, h2, h3⟩
      exact ⟨i, by omega, by omega, h3⟩
    · refine fun f g hf hg => hf.comm hg ?_
      rintro l hl ⟨i, h1, h2, h3⟩
      exact hd lo i (by omega) l hl h3

theorem seq_parFor {σ : Type} {r0 : R} {body : ℕ → FJ σ V R} (I : ℕ → σ → Prop) {n lo : ℕ} {s : σ}
    (hb : ∀ i, lo ≤ i → i < lo + n → ∀ s, I i s → ∃ r s', seq (body i) s = .ok (r, s') ∧ I (i + 1) s') (h : I lo s) :
    ∃ s', seq (parFor r0 body lo n) s = .ok (r0, s') ∧ I (lo + n) s' := by
  induction n generalizing lo s with
  | zero => exact ⟨s, rfl, h⟩
  | succ n ih =>
    obtain ⟨r, s1, h1, h2⟩ := hb lo (le_refl _) (by omega) s h
    obtain ⟨s2, h3, h4⟩ := ih (lo := lo + 1) (s := s1) (fun i hi hi' => hb i (by omega) (by omega)) h2
    refine ⟨s2, ?_, ?_⟩
    · simp only [parFor, seq, h1, h3, Except.bind]
    · rw [show lo + (n + 1) = lo + 1 + n by omega]
      exact h4

end FJ

end Verif.ForkJoin
