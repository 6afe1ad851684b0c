import Verif.DynKd.SiblinModel
import Mathlib.Tactic.Common

set_option linter.unusedVariables false

/-! Property C57: sibling pointers when both children are replaced. -/

namespace Verif.DynKd.Siblin

/-- What holds at program counters `i`, `j`. -/
structure Inv (i j : ℕ) (s : St) : Prop where
  left : s.left = if 2 ≤ i then .newL else .oldL
  right : s.right = if 2 ≤ j then .newR else .oldR
  sib : 2 ≤ i → 2 ≤ j →
    ((3 ≤ i → s.siblin .newL = some .newR) ∧ (4 ≤ i → s.siblin .newR = some .newL)) ∨
      ((3 ≤ j → s.siblin .newL = some .newR) ∧ (4 ≤ j → s.siblin .newR = some .newL))

theorem setSiblin_ok {s s' : St} {p q : Ptr} (h : setSiblin s p q = .ok s') :
    s'.left = s.left ∧ s'.right = s.right ∧ s'.siblin p = some q ∧ ∀ x, x ≠ p → s'.siblin x = s.siblin x := by
  unfold setSiblin at h
  split at h
  · cases h
  · cases h
    exact ⟨rfl, rfl, by simp, fun x hx => by simp [hx]⟩

theorem stepL_inv {i j : ℕ} {s s' : St} (h : Inv i j s) (he : stepL i s = .ok s') : Inv (i + 1) j s' := by
  obtain ⟨hl, hr, hs⟩ := h
  unfold stepL at he
  split at he
  · split at he
    · cases he
    · cases he
      exact ⟨by simpa using hl, hr, fun h => absurd h (by omega)⟩
  · cases he
    exact ⟨by simp, hr, fun _ _ => .inl ⟨fun h => absurd h (by omega), fun h => absurd h (by omega)⟩⟩
  · obtain ⟨a, b, c, e⟩ := setSiblin_ok he
    rw [hl, if_pos (by omega)] at c e
    refine ⟨by rw [a, hl]; simp, by rw [b, hr], fun _ hj => ?_⟩
    rw [hr, if_pos hj] at c
    rcases hs (by omega) hj with h1 | h1
    · exact .inl ⟨fun _ => c, fun h => absurd h (by omega)⟩
    · exact .inr ⟨fun _ => c, fun h => by rw [e _ (by decide)]; exact h1.2 h⟩
  · obtain ⟨a, b, c, e⟩ := setSiblin_ok he
    refine ⟨by rw [a, hl]; simp, by rw [b, hr], fun _ hj => ?_⟩
    rw [hr, if_pos hj] at c e
    rw [hl, if_pos (by omega)] at c
    rcases hs (by omega) hj with h1 | h1
    · exact .inl ⟨fun _ => by rw [e _ (by decide)]; exact h1.1 (by omega), fun _ => c⟩
    · exact .inr ⟨fun h => by rw [e _ (by decide)]; exact h1.1 h, fun _ => c⟩
  · rename_i h0 h1 h2 h3
    cases he
    have hi : 4 ≤ i := by
      rcases i with _ | _ | _ | _ | i
      · exact absurd rfl h0
      · exact absurd rfl h1
      · exact absurd rfl h2
      · exact absurd rfl h3
      · omega
    refine ⟨by rw [hl, if_pos (by omega), if_pos (by omega)], hr, fun _ hj => ?_⟩
    rcases hs (by omega) hj with h1 | h1
    · exact .inl ⟨fun _ => h1.1 (by omega), fun _ => h1.2 (by omega)⟩
    · exact .inr h1

theorem stepR_inv {i j : ℕ} {s s' : St} (h : Inv i j s) (he : stepR j s = .ok s') : Inv i (j + 1) s' := by
  obtain ⟨hl, hr, hs⟩ := h
  unfold stepR at he
  split at he
  · split at he
    · cases he
    · cases he
      exact ⟨hl, by simpa using hr, fun _ h => absurd h (by omega)⟩
  · cases he
    exact ⟨hl, by simp, fun _ _ => .inr ⟨fun h => absurd h (by omega), fun h => absurd h (by omega)⟩⟩
  · obtain ⟨a, b, c, e⟩ := setSiblin_ok he
    refine ⟨by rw [a, hl], by rw [b, hr]; simp, fun hi _ => ?_⟩
    rw [hl, if_pos hi] at c e
    rw [hr, if_pos (by omega)] at c
    rcases hs hi (by omega) with h1 | h1
    · exact .inl ⟨fun _ => c, fun h => by rw [e _ (by decide)]; exact h1.2 h⟩
    · exact .inr ⟨fun _ => c, fun h => absurd h (by omega)⟩
  · obtain ⟨a, b, c, e⟩ := setSiblin_ok he
    refine ⟨by rw [a, hl], by rw [b, hr]; simp, fun hi _ => ?_⟩
    rw [hr, if_pos (by omega)] at c e
    rw [hl, if_pos hi] at c
    rcases hs hi (by omega) with h1 | h1
    · exact .inl ⟨fun h => by rw [e _ (by decide)]; exact h1.1 h, fun _ => c⟩
    · exact .inr ⟨fun _ => by rw [e _ (by decide)]; exact h1.1 (by omega), fun _ => c⟩
  · rename_i h0 h1 h2 h3
    cases he
    have hj : 4 ≤ j := by
      rcases j with _ | _ | _ | _ | j
      · exact absurd rfl h0
      · exact absurd rfl h1
      · exact absurd rfl h2
      · exact absurd rfl h3
      · omega
    refine ⟨hl, by rw [hr, if_pos (by omega), if_pos (by omega)], fun hi _ => ?_⟩
    rcases hs hi (by omega) with h1 | h1
    · exact .inl h1
    · exact .inr ⟨fun _ => h1.1 (by omega), fun _ => h1.2 (by omega)⟩

theorem run_inv : ∀ (sch : List Bool) (i j : ℕ) (s s' : St), Inv i j s → run sch i j s = .ok s' →
    Inv (i + sch.count true) (j + sch.count false) s'
  | [], i, j, s, s', h, he => by
    cases he
    exact h
  | true :: sch, i, j, s, s', h, he => by
    rw [run] at he
    cases hs : stepL i s with
    | error e => rw [hs] at he; cases he
    | ok s1 =>
      rw [hs] at he
      have := run_inv sch (i + 1) j s1 s' (stepL_inv h hs) he
      simpa [Nat.add_assoc, Nat.add_comm 1] using this
  | false :: sch, i, j, s, s', h, he => by
    rw [run] at he
    cases hs : stepR j s with
    | error e => rw [hs] at he; cases he
    | ok s1 =>
      rw [hs] at he
      have := run_inv sch i (j + 1) s1 s' (stepR_inv h hs) he
      simpa [Nat.add_assoc, Nat.add_comm 1] using this

theorem start_inv : Inv 0 0 start := ⟨rfl, rfl, fun h => absurd h (by omega)⟩

/-- **C57 (partial).** Every execution of the two lambdas to their ends that does not use a deleted node leaves the two new
nodes as children that are each other's siblings; both serial orders are such executions. -/
theorem c57_siblings_partial :
    (∀ (sch : List Bool) (s : St), 4 ≤ sch.count true → 4 ≤ sch.count false → run sch 0 0 start = .ok s →
      s.left = .newL ∧ s.right = .newR ∧ s.siblin .newL = some .newR ∧ s.siblin .newR = some .newL) ∧
    (∃ s, run (List.replicate 4 true ++ List.replicate 4 false) 0 0 start = .ok s) ∧
    ∃ s, run (List.replicate 4 false ++ List.replicate 4 true) 0 0 start = .ok s := by
  refine ⟨fun sch s h1 h2 he => ?_, ⟨_, rfl⟩, ⟨_, rfl⟩⟩
  obtain ⟨hl, hr, hs⟩ := run_inv sch 0 0 start s start_inv he
  rw [Nat.zero_add] at hl
  rw [Nat.zero_add] at hr
  rw [Nat.zero_add, Nat.zero_add] at hs
  refine ⟨by rw [hl, if_pos (by omega)], by rw [hr, if_pos (by omega)], ?_⟩
  rcases hs (by omega) (by omega) with h | h
  · exact ⟨h.1 (by omega), h.2 (by omega)⟩
  · exact ⟨h.1 (by omega), h.2 (by omega)⟩

/-- **C57 fails in parallel.** If `insertRight` has deleted the right child and not yet replaced it, `insertLeft` writes the
sibling pointer of a deleted node. -/
theorem c57_race_false : run [false, true, true, true, true] 0 0 start = .error .ub := rfl

end Verif.DynKd.Siblin
