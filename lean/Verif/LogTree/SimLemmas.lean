import Mathlib.Data.Nat.Bitwise
import Mathlib.Tactic.Linarith
import Mathlib.Tactic.Ring
import Verif.LogTree.Model

set_option linter.unusedSectionVars false
set_option linter.unusedVariables false

/-!
The simulation of the carries.
-/

namespace Verif.LogTree

open Verif

/-- Number of buffers in a list of trees. -/
def weight (L : List ℕ) : ℕ := (L.map fun j => 2 ^ j).sum

theorem weight_cons (j : ℕ) (L : List ℕ) : weight (j :: L) = 2 ^ j + weight L := rfl

theorem mod_two_pow_succ (x j : ℕ) : x % 2 ^ (j + 1) = x % 2 ^ j + 2 ^ j * (x.testBit j).toNat := by
  rw [Nat.mod_pow_succ, Nat.toNat_testBit]

theorem gather_spec (l w o : ℕ) : ∀ ii, ∃ L st, gather l w o ii = (L, 2 ^ l * weight L, st) ∧ st ≤ ii ∧
    ((w % 2 ^ ii : ℕ) : ℤ) - (o % 2 ^ ii : ℕ) = ((w % 2 ^ st : ℕ) : ℤ) - (o % 2 ^ st : ℕ) - (weight L : ℤ) ∧
    (∀ j, j ∈ L ↔ st ≤ j ∧ j < ii ∧ o.testBit j = true ∧ w.testBit j = false) ∧
    (∀ j, st ≤ j → j < ii → w.testBit j = true → o.testBit j = true) ∧
    (0 < st → w.testBit (st - 1) = true ∧ o.testBit (st - 1) = false) ∧ L.Nodup ∧
    weight L ≤ o % 2 ^ ii := by
  intro ii
  induction ii with
  | zero =>
    refine ⟨[], 0, rfl, le_refl _, ?_, ?_, ?_, ?_, List.nodup_nil, ?_⟩
    · simp [weight]
    · intro j; simp
    · intro j h1 h2; omega
    · intro h; omega
    · simp [weight]
  | succ j ih =>
    obtain ⟨L, st, hg, h1, h2, h3, h4, h5, h6, h7⟩ := ih
    have hw := mod_two_pow_succ w j
    have ho := mod_two_pow_succ o j
    rw [gather]
    cases bw : w.testBit j <;> cases bo : o.testBit j <;> rw [bw] at hw <;> rw [bo] at ho <;>
      simp only [Bool.toNat_true, Bool.toNat_false, Nat.mul_one, Nat.mul_zero, Nat.add_zero] at hw ho
    · refine ⟨L, st, by simp [hg], by omega, by rw [hw, ho]; exact h2, ?_, ?_, h5, h6, by rw [ho]; exact h7⟩
      · intro k
        rw [h3]
        constructor
        · rintro ⟨a, b, c⟩; exact ⟨a, by omega, c⟩
        · rintro ⟨a, b, c, e⟩
          refine ⟨a, ?_, c, e⟩
          rcases Nat.lt_succ_iff_lt_or_eq.mp b with hb | rfl
          · exact hb
          · rw [bo] at c; cases c
      · intro k a b c
        rcases Nat.lt_succ_iff_lt_or_eq.mp b with hb | rfl
        · exact h4 k a hb c
        · rw [bw] at c; cases c
    · refine ⟨j :: L, st, ?_, by omega, ?_, ?_, ?_, h5, ?_, ?_⟩
      · simp [hg, weight_cons, treeSize]
        ring
      · rw [hw, ho, weight_cons]
        push_cast
        push_cast at h2
        linarith
      · intro k
        rw [List.mem_cons, h3]
        constructor
        · rintro (rfl | ⟨a, b, c⟩)
          · exact ⟨h1, by omega, bo, bw⟩
          · exact ⟨a, by omega, c⟩
        · rintro ⟨a, b, c⟩
          rcases Nat.lt_succ_iff_lt_or_eq.mp b with hb | rfl
          · exact Or.inr ⟨a, hb, c⟩
          · exact Or.inl rfl
      · intro k a b c
        rcases Nat.lt_succ_iff_lt_or_eq.mp b with hb | rfl
        · exact h4 k a hb c
        · rw [bw] at c; cases c
      · rw [List.nodup_cons]
        refine ⟨fun h => ?_, h6⟩
        have := ((h3 j).mp h).2.1
        omega
      · rw [weight_cons, ho]; omega
    · refine ⟨[], j + 1, by simp [weight], le_refl _, by simp [weight], ?_, ?_, ?_, List.nodup_nil, by simp [weight]⟩
      · intro k; simp; omega
      · intro k a b; omega
      · intro _; exact ⟨bw, bo⟩
    · refine ⟨L, st, by simp [hg], by omega, ?_, ?_, ?_, h5, h6, by omega⟩
      · rw [hw, ho]; push_cast; push_cast at h2; linarith
      · intro k
        rw [h3]
        constructor
        · rintro ⟨a, b, c⟩; exact ⟨a, by omega, c⟩
        · rintro ⟨a, b, c, e⟩
          refine ⟨a, ?_, c, e⟩
          rcases Nat.lt_succ_iff_lt_or_eq.mp b with hb | rfl
          · exact hb
          · rw [bw] at e; cases e
      · intro k a b c
        rcases Nat.lt_succ_iff_lt_or_eq.mp b with hb | rfl
        · exact h4 k a hb c
        · exact bo

/-- The intervals of points of a list of moves follow each other downwards from `hi` to `lo`. -/
def Cuts : List Move → ℤ → ℤ → Prop
  | [], hi, lo => lo = hi
  | m :: ms, hi, lo => m.stop = hi ∧ m.start ≤ m.stop ∧ Cuts ms m.start lo

theorem Cuts.le : ∀ {ms : List Move} {hi lo : ℤ}, Cuts ms hi lo →
    lo ≤ hi ∧ ∀ m ∈ ms, lo ≤ m.start ∧ m.start ≤ m.stop ∧ m.stop ≤ hi
  | [], hi, lo, h => ⟨le_of_eq h, by simp⟩
  | m :: ms, hi, lo, ⟨h1, h2, h3⟩ => by
    obtain ⟨a, b⟩ := Cuts.le h3
    refine ⟨by omega, ?_⟩
    intro x hx
    rcases List.mem_cons.mp hx with rfl | hx
    · exact ⟨a, h2, by omega⟩
    · have := b x hx
      exact ⟨this.1, this.2.1, by omega⟩

/-- What the simulation below bit `ii` produces. -/
structure MovesOK (l w o b ii : ℕ) (ms : List Move) : Prop where
  target : ∀ m ∈ ms, m.target < ii ∧ w.testBit m.target = true ∧ o.testBit m.target = false
  trees : ∀ m ∈ ms, m.trees.Nodup ∧ ∀ j ∈ m.trees, j < m.target ∧ o.testBit j = true ∧ w.testBit j = false
  allNew : ∀ j < ii, w.testBit j = true → o.testBit j = false → ∃ m ∈ ms, m.target = j
  allOld : ∀ j < ii, o.testBit j = true → w.testBit j = false → ∃ m ∈ ms, j ∈ m.trees
  nodupT : (ms.map Move.target).Nodup
  nodupG : (ms.flatMap Move.trees).Nodup
  size : ∀ m ∈ ms, (2 ^ l * weight m.trees : ℕ) + (m.stop - m.start) + (if m.usesBuffer then (b : ℤ) else 0) =
    (treeSize l m.target : ℕ)
  light : ∀ m ∈ ms, weight m.trees < 2 ^ m.target

theorem simulate_spec (l w o b : ℕ) (hb : b ≤ 2 ^ l) (use : Bool) : ∀ fuel ii s, ii ≤ fuel →
    s.fullBuffers = ((w % 2 ^ ii : ℕ) : ℤ) - (o % 2 ^ ii : ℕ) → 0 ≤ s.fullBuffers →
    ∃ ms, (simulate l w o b use fuel ii s).moves = s.moves ++ ms ∧ (simulate l w o b use fuel ii s).fullBuffers = 0 ∧
      (simulate l w o b use fuel ii s).pointsEnd =
        s.pointsEnd - (2 ^ l * s.fullBuffers - if use = true ∧ 0 < s.fullBuffers then (b : ℤ) else 0) ∧
      (simulate l w o b use fuel ii s).haveUsed = (s.haveUsed || (use && decide (0 < s.fullBuffers))) ∧
      MovesOK l w o b ii ms ∧ Cuts ms s.pointsEnd (simulate l w o b use fuel ii s).pointsEnd ∧
      ms.countP (fun m => m.usesBuffer) = if use = true ∧ 0 < s.fullBuffers then 1 else 0 := by
  intro fuel
  induction fuel with
  | zero =>
    intro ii s hii hf h0
    obtain rfl : ii = 0 := by omega
    have hz : s.fullBuffers = 0 := by rw [hf]; simp
    refine ⟨[], by simp [simulate], by simpa [simulate] using hz, by simp [simulate, hz], by simp [simulate, hz], ?_,
      by simp [simulate, Cuts], by simp [hz]⟩
    constructor <;> simp
  | succ fuel ih =>
    intro ii s hii hf h0
    cases ii with
    | zero =>
      have hz : s.fullBuffers = 0 := by rw [hf]; simp
      refine ⟨[], by simp [simulate], by simpa [simulate] using hz, by simp [simulate, hz], by simp [simulate, hz], ?_,
        by simp [simulate, Cuts], by simp [hz]⟩
      constructor <;> simp
    | succ i =>
      have hw := mod_two_pow_succ w i
      have ho := mod_two_pow_succ o i
      have lw : w % 2 ^ i < 2 ^ i := Nat.mod_lt _ (by positivity)
      have lo : o % 2 ^ i < 2 ^ i := Nat.mod_lt _ (by positivity)
      by_cases hd : (w.testBit i && !o.testBit i) = true
      · have hd' := hd
        simp only [Bool.and_eq_true, Bool.not_eq_true'] at hd'
        obtain ⟨bw, bo⟩ := hd'
        rw [bw] at hw
        rw [bo] at ho
        simp only [Bool.toNat_true, Bool.toNat_false, Nat.mul_one, Nat.mul_zero, Nat.add_zero] at hw ho
        obtain ⟨L, st, hg, g1, g2, g3, g4, g5, g6, g7⟩ := gather_spec l w o i
        have hpos : weight L + 1 ≤ 2 ^ i := by omega
        set D : ℤ := (2 ^ i : ℤ) - weight L with hD
        have hD1 : 1 ≤ D := by
          have : ((weight L + 1 : ℕ) : ℤ) ≤ ((2 ^ i : ℕ) : ℤ) := by exact_mod_cast hpos
          push_cast at this
          linarith
        have hl : (0 : ℤ) < 2 ^ l := by positivity
        have hnum : (treeSize l i : ℤ) - (2 ^ l * weight L : ℕ) = 2 ^ l * D := by
          rw [hD, treeSize]; push_cast; ring
        have hdiv : (2 ^ l * D) / ((2 ^ l : ℕ) : ℤ) = D := by
          push_cast
          exact Int.mul_ediv_cancel_left _ (ne_of_gt hl)
        have hfull : s.fullBuffers - D = ((w % 2 ^ st : ℕ) : ℤ) - (o % 2 ^ st : ℕ) := by
          rw [hf, hw, ho, hD]
          push_cast
          push_cast at g2
          linarith
        have hst : 0 ≤ s.fullBuffers - D ∧ (0 < s.fullBuffers - D ↔ 0 < st) := by
          rw [hfull]
          rcases Nat.eq_zero_or_pos st with h | h
          · subst h; simp
          · obtain ⟨x, y⟩ := g5 h
            have e : st = (st - 1) + 1 := by omega
            have w1 := mod_two_pow_succ w (st - 1)
            have o1 := mod_two_pow_succ o (st - 1)
            rw [← e, x] at w1
            rw [← e, y] at o1
            have := Nat.mod_lt o (show 0 < 2 ^ (st - 1) by positivity)
            simp only [Bool.toNat_true, Bool.toNat_false, Nat.mul_one, Nat.mul_zero, Nat.add_zero] at w1 o1
            have hlt : o % 2 ^ st < w % 2 ^ st := by omega
            have : ((o % 2 ^ st : ℕ) : ℤ) < (w % 2 ^ st : ℕ) := by exact_mod_cast hlt
            exact ⟨by linarith, ⟨fun _ => h, fun _ => by linarith⟩⟩
        have hfb : 0 < s.fullBuffers := by linarith [hst.1]
        set cur : Bool := use && decide (s.fullBuffers - D = 0) with hcur
        set num' : ℤ := if cur then 2 ^ l * D - b else 2 ^ l * D with hnum'
        have hnn : 0 ≤ num' := by
          have : (b : ℤ) ≤ 2 ^ l := by exact_mod_cast hb
          have h2 : (2 ^ l : ℤ) * 1 ≤ 2 ^ l * D := mul_le_mul_of_nonneg_left hD1 (le_of_lt hl)
          rw [hnum']
          split <;> linarith
        have hstep : simulate l w o b use (fuel + 1) (i + 1) s = simulate l w o b use fuel st
            { moves := s.moves ++ [⟨cur, s.pointsEnd - num', s.pointsEnd, L, i⟩]
              fullBuffers := s.fullBuffers - D
              pointsEnd := s.pointsEnd - num'
              haveUsed := s.haveUsed || cur } := by
          rw [simulate, if_pos hd]
          simp only [hg, hnum, hdiv, ← hcur, ← hnum']
        obtain ⟨ms, m1, m2, m3, m4, m5, m6, m7⟩ := ih st
            { moves := s.moves ++ [⟨cur, s.pointsEnd - num', s.pointsEnd, L, i⟩]
              fullBuffers := s.fullBuffers - D
              pointsEnd := s.pointsEnd - num'
              haveUsed := s.haveUsed || cur } (by omega) hfull hst.1
        simp only at m1 m3 m4 m6 m7
        rw [hstep]
        refine ⟨⟨cur, s.pointsEnd - num', s.pointsEnd, L, i⟩ :: ms, ?_, m2, ?_, ?_, ?_, ?_, ?_⟩
        · rw [m1]; simp
        · rw [m3]
          rcases Int.lt_or_eq_of_le hst.1 with hlt | heq
          · have hne : ¬ s.fullBuffers - D = 0 := by omega
            have hcf : cur = false := by rw [hcur, decide_eq_false hne, Bool.and_false]
            have hn : num' = 2 ^ l * D := by rw [hnum', hcf]; simp
            have e1 : (if use = true ∧ 0 < s.fullBuffers - D then (b : ℤ) else 0) =
                if use = true ∧ 0 < s.fullBuffers then (b : ℤ) else 0 := by
              refine if_congr ?_ rfl rfl
              exact and_congr_right fun _ => ⟨fun _ => hfb, fun _ => hlt⟩
            rw [hn, e1]
            ring
          · have hct : cur = use := by rw [hcur, decide_eq_true heq.symm, Bool.and_true]
            have e1 : (if use = true ∧ 0 < s.fullBuffers - D then (b : ℤ) else 0) = 0 := by
              rw [if_neg]
              rintro ⟨_, h⟩
              omega
            have hDe : D = s.fullBuffers := by omega
            rw [e1, hnum', hct, hDe]
            by_cases hu : use = true
            · rw [if_pos hu, if_pos ⟨hu, hfb⟩]; ring
            · rw [if_neg hu, if_neg (fun h => hu h.1)]; ring
        · rw [m4]
          rcases Int.lt_or_eq_of_le hst.1 with hlt | heq
          · have : ¬ s.fullBuffers - D = 0 := by omega
            have hlt' : D < s.fullBuffers := by omega
            simp [hcur, this, hlt', hfb]
          · have hnlt : ¬ D < s.fullBuffers := by omega
            simp [hcur, ← heq, hfb, hnlt]
        · have hi : ∀ j ∈ L, j < i := fun j hj => ((g3 j).mp hj).2.1
          constructor
          · intro m hm
            rcases List.mem_cons.mp hm with rfl | hm
            · exact ⟨by simp, bw, bo⟩
            · have := m5.target m hm
              exact ⟨by omega, this.2⟩
          · intro m hm
            rcases List.mem_cons.mp hm with rfl | hm
            · exact ⟨g6, fun j hj => ⟨hi j hj, ((g3 j).mp hj).2.2⟩⟩
            · exact m5.trees m hm
          · intro j hj x y
            rcases Nat.lt_succ_iff_lt_or_eq.mp hj with hj | rfl
            · rcases Nat.lt_or_ge j st with hjs | hjs
              · obtain ⟨m, hm, e⟩ := m5.allNew j hjs x y
                exact ⟨m, List.mem_cons_of_mem _ hm, e⟩
              · rw [g4 j hjs hj x] at y; cases y
            · exact ⟨_, List.mem_cons_self, rfl⟩
          · intro j hj x y
            rcases Nat.lt_succ_iff_lt_or_eq.mp hj with hj | rfl
            · rcases Nat.lt_or_ge j st with hjs | hjs
              · obtain ⟨m, hm, e⟩ := m5.allOld j hjs x y
                exact ⟨m, List.mem_cons_of_mem _ hm, e⟩
              · exact ⟨_, List.mem_cons_self, (g3 j).mpr ⟨hjs, hj, x, y⟩⟩
            · rw [bo] at x; cases x
          · rw [List.map_cons, List.nodup_cons]
            refine ⟨fun h => ?_, m5.nodupT⟩
            obtain ⟨m, hm, e⟩ := List.mem_map.mp h
            have := (m5.target m hm).1
            simp only at e
            omega
          · rw [List.flatMap_cons, List.nodup_append]
            refine ⟨g6, m5.nodupG, ?_⟩
            intro x hx y hy hxy
            obtain ⟨m, hm, e⟩ := List.mem_flatMap.mp hy
            have h1 := (m5.target m hm).1
            have h2 := ((m5.trees m hm).2 y e).1
            have h3 := ((g3 x).mp hx).1
            omega
          · intro m hm
            rcases List.mem_cons.mp hm with rfl | hm
            · simp only [hnum']
              rw [show ((treeSize l i : ℕ) : ℤ) = 2 ^ l * D + (2 ^ l * weight L : ℕ) by linarith [hnum]]
              cases cur
              · simp
                ring
              · simp
                ring
            · exact m5.size m hm
          · intro m hm
            rcases List.mem_cons.mp hm with rfl | hm
            · exact hpos
            · exact m5.light m hm
        · refine ⟨rfl, by simp only; omega, ?_⟩
          exact m6
        · rw [List.countP_cons, m7]
          rcases Int.lt_or_eq_of_le hst.1 with hlt | heq
          · have : ¬ s.fullBuffers - D = 0 := by omega
            have hlt' : D < s.fullBuffers := by omega
            simp [hcur, this, hlt', hfb]
          · have hnlt : ¬ D < s.fullBuffers := by omega
            simp [hcur, ← heq, hfb, hnlt]
      · have hstep : simulate l w o b use (fuel + 1) (i + 1) s = simulate l w o b use fuel i s := by
          rw [simulate, if_neg hd]
        have heq : w.testBit i = o.testBit i := by
          cases bw : w.testBit i <;> cases bo : o.testBit i
          · rfl
          · exfalso
            rw [bw] at hw
            rw [bo] at ho
            simp only [Bool.toNat_true, Bool.toNat_false, Nat.mul_one, Nat.mul_zero, Nat.add_zero] at hw ho
            rw [hf, hw, ho] at h0
            push_cast at h0
            have : ((w % 2 ^ i : ℕ) : ℤ) < ((2 ^ i : ℕ) : ℤ) := by exact_mod_cast lw
            have h3 : (0 : ℤ) ≤ ((o % 2 ^ i : ℕ) : ℤ) := by positivity
            push_cast at this h3
            linarith
          · rw [bw, bo] at hd; simp at hd
          · rfl
        obtain ⟨ms, m1, m2, m3, m4, m5, m6, m7⟩ := ih i s (by omega) (by
          rw [hf, hw, ho, heq]; push_cast; ring) h0
        rw [hstep]
        refine ⟨ms, m1, m2, m3, m4, ?_, m6, m7⟩
        constructor
        · intro m hm
          have := m5.target m hm
          exact ⟨by omega, this.2⟩
        · exact m5.trees
        · intro j hj x y
          rcases Nat.lt_succ_iff_lt_or_eq.mp hj with hj | rfl
          · exact m5.allNew j hj x y
          · rw [heq, y] at x; cases x
        · intro j hj x y
          rcases Nat.lt_succ_iff_lt_or_eq.mp hj with hj | rfl
          · exact m5.allOld j hj x y
          · rw [heq, x] at y; cases y
        · exact m5.nodupT
        · exact m5.nodupG
        · exact m5.size
        · exact m5.light

/-- If the new mask does not fit, some buffers are left over. -/
theorem simulate_overflow (l w o b : ℕ) (use : Bool) : ∀ fuel ii s,
    s.fullBuffers - (w % 2 ^ ii : ℕ) ≤ (simulate l w o b use fuel ii s).fullBuffers := by
  intro fuel
  induction fuel with
  | zero =>
    intro ii s
    have : (0 : ℤ) ≤ ((w % 2 ^ ii : ℕ) : ℤ) := Int.natCast_nonneg _
    rw [simulate]
    linarith
  | succ fuel ih =>
    intro ii s
    cases ii with
    | zero => rw [simulate]; simp; simp
    | succ i =>
      have hw := mod_two_pow_succ w i
      rw [simulate]
      split
      · rename_i hd
        simp only [Bool.and_eq_true] at hd
        rw [hd.1] at hw
        simp only [Bool.toNat_true, Nat.mul_one] at hw
        obtain ⟨L, st, hg, g1, g2, g3, g4, g5, g6, g7⟩ := gather_spec l w o i
        simp only [hg]
        refine le_trans ?_ (ih st _)
        simp only
        have hl : (0 : ℤ) < 2 ^ l := by positivity
        have hnum : (treeSize l i : ℤ) - (2 ^ l * weight L : ℕ) = 2 ^ l * ((2 ^ i : ℤ) - weight L) := by
          rw [treeSize]; push_cast; ring
        have hdiv : ((treeSize l i : ℤ) - (2 ^ l * weight L : ℕ)) / ((2 ^ l : ℕ) : ℤ) = (2 ^ i : ℤ) - weight L := by
          rw [hnum]
          push_cast
          exact Int.mul_ediv_cancel_left _ (ne_of_gt hl)
        rw [hdiv, hw]
        have h2 : w % 2 ^ st ≤ w % 2 ^ i := by
          have : 2 ^ st ∣ 2 ^ i := Nat.pow_dvd_pow 2 g1
          rw [← Nat.mod_mod_of_dvd w this]
          exact Nat.mod_le _ _
        have h3 : ((w % 2 ^ st : ℕ) : ℤ) ≤ ((w % 2 ^ i : ℕ) : ℤ) := by exact_mod_cast h2
        have h4 : (0 : ℤ) ≤ (weight L : ℤ) := Int.natCast_nonneg _
        push_cast
        push_cast at h3
        linarith
      · refine le_trans ?_ (ih i s)
        have h2 : w % 2 ^ i ≤ w % 2 ^ (i + 1) := by omega
        have h3 : ((w % 2 ^ i : ℕ) : ℤ) ≤ ((w % 2 ^ (i + 1) : ℕ) : ℤ) := by exact_mod_cast h2
        linarith

end Verif.LogTree
