import Mathlib.Data.List.Perm.Basic
import Mathlib.Data.List.Range
import Mathlib.Tactic.Ring
import Mathlib.Tactic.IntervalCases
import Verif.BatchKd.SplitPointsModel

set_option linter.unusedSectionVars false
set_option linter.unusedVariables false

/-!
Property C30: the subtree sizes of the cache-oblivious tree are those of repeated median splitting.
-/

namespace Verif.BatchKd

/-- Specification: sizes after splitting `n` items `l` times in the middle, the right part getting the odd
item (`include/batchKdtree/shared/utils.h:46-55`, "always puts more on the right hand side"). -/
def halves : ℕ → ℕ → List ℕ
  | 0, n => [n]
  | l + 1, n => halves l (n / 2) ++ halves l (n - n / 2)

theorem halves_last (l n : ℕ) :
    halves (l + 1) n = (halves l n).flatMap fun s => [s / 2, s - s / 2] := by
  induction l generalizing n with
  | zero => simp [halves]
  | succ l ih =>
    rw [halves, ih, ih]
    conv_rhs => rw [halves]
    rw [List.flatMap_append]

theorem halves_length (l n : ℕ) : (halves l n).length = 2 ^ l := by
  induction l generalizing n with
  | zero => simp [halves]
  | succ l ih => simp [halves, ih, pow_succ]; ring

theorem halves_sum (l n : ℕ) : (halves l n).sum = n := by
  induction l generalizing n with
  | zero => simp [halves]
  | succ l ih => simp [halves, ih]; omega

theorem mapM_except_ok {α β : Type} (f : α → Except Err β) (g : α → β) (L : List α)
    (h : ∀ a ∈ L, f a = .ok (g a)) : L.mapM f = .ok (L.map g) := by
  induction L with
  | nil => rfl
  | cons a L ih =>
    rw [List.mapM_cons, h a (by simp), ih fun b hb => h b (by simp [hb])]
    rfl

/-- The rows without outcomes. -/
def sps : ℕ → List ℕ
  | 0 => [1]
  | l + 1 => (sps l).flatMap fun p => [p + 2 ^ l, p]

theorem sps_length (l : ℕ) : (sps l).length = 2 ^ l := by
  induction l with
  | zero => rfl
  | succ l ih => simp [sps, ih, pow_succ, List.length_flatMap]

theorem getElem?_flatMap_pair {α β : Type} (f g : α → β) (L : List α) (i : ℕ) :
    (L.flatMap fun p => [f p, g p])[i]? =
      (L[i / 2]?).map fun p => if i % 2 = 0 then f p else g p := by
  induction L generalizing i with
  | nil => simp
  | cons a L ih =>
    match i with
    | 0 => simp
    | 1 => simp
    | i + 2 =>
      have h1 : (i + 2) / 2 = i / 2 + 1 := by omega
      have h2 : (i + 2) % 2 = i % 2 := by omega
      simp only [List.flatMap_cons, List.cons_append, List.nil_append, List.getElem?_cons_succ, h1, h2]
      exact ih i

theorem splitPoints_eq (l : ℕ) : splitPoints l = .ok (sps l) := by
  induction l with
  | zero => rfl
  | succ l ih =>
    rw [splitPoints, ih]
    simp only [Except.bind]
    have hlen : ∀ i ∈ List.range (2 ^ (l + 1)), i / 2 < (sps l).length := by
      intro i hi
      rw [sps_length]
      rw [List.mem_range, pow_succ] at hi
      omega
    rw [mapM_except_ok (splitPointAt (sps l) l) (fun i => ((sps (l + 1))[i]?).getD 0)]
    · congr 1
      apply List.ext_getElem?
      intro i
      rw [List.getElem?_map]
      by_cases hi : i < 2 ^ (l + 1)
      · have h2 : i < (sps (l + 1)).length := by rw [sps_length]; exact hi
        simp [List.getElem?_range hi, List.getElem?_eq_getElem h2]
      · have h2 : (sps (l + 1)).length ≤ i := by rw [sps_length]; omega
        rw [List.getElem?_eq_none h2, List.getElem?_eq_none (by simpa using hi)]
        rfl
    · intro i hi
      have h := hlen i hi
      unfold splitPointAt
      rw [sps, getElem?_flatMap_pair, List.getElem?_eq_getElem h]
      simp only [Option.map_some, Option.getD_some]
      split <;> simp

theorem sps_range (l : ℕ) : ∀ p ∈ sps l, 1 ≤ p ∧ p ≤ 2 ^ l := by
  induction l with
  | zero => simp [sps]
  | succ l ih =>
    intro p hp
    rw [sps, List.mem_flatMap] at hp
    obtain ⟨q, hq, hp⟩ := hp
    have := ih q hq
    rw [pow_succ]
    simp at hp
    omega

theorem sps_perm (l : ℕ) : (sps l).Perm ((List.range (2 ^ l)).map (· + 1)) := by
  induction l with
  | zero => simp [sps]
  | succ l ih =>
    have h1 : (sps (l + 1)).Perm ((sps l).map (· + 2 ^ l) ++ sps l) := by
      rw [sps]
      generalize sps l = L
      induction L with
      | nil => simp
      | cons a L ih2 =>
        simp only [List.flatMap_cons, List.map_cons, List.cons_append, List.nil_append]
        refine List.Perm.cons _ ?_
        refine (List.Perm.cons a ih2).trans ?_
        exact List.perm_middle.symm
    refine h1.trans ?_
    refine List.perm_append_comm.trans ?_
    rw [pow_succ, mul_two, List.range_add, List.map_append]
    refine ih.append ?_
    refine (ih.map _).trans ?_
    rw [List.map_map, List.map_map]
    refine List.Perm.of_eq (List.map_congr_left ?_)
    intro a _
    simp only [Function.comp]
    ring

theorem sizes_eq_halves (l n : ℕ) :
    (sps l).map (bucketSize (n / 2 ^ l) (n % 2 ^ l)) = halves l n := by
  induction l with
  | zero => simp [sps, halves, bucketSize, Nat.mod_one]
  | succ l ih =>
    rw [halves_last, ← ih, sps, List.map_flatMap, List.flatMap_map]
    apply List.flatMap_congr
    intro p hp
    have hr := sps_range l p hp
    have hM : 0 < 2 ^ l := Nat.two_pow_pos l
    rw [pow_succ]
    generalize 2 ^ l = M at hr hM ⊢
    rw [Nat.mod_mul, ← Nat.div_div_eq_div_mul]
    have hR : n % M < M := Nat.mod_lt _ hM
    generalize n / M = Q
    generalize n % M = R at hR
    unfold bucketSize
    rcases Nat.mod_two_eq_zero_or_one Q with h | h <;> rw [h] <;>
      simp only [Nat.mul_zero, Nat.mul_one, Nat.add_zero, List.map_cons, List.map_nil] <;>
      congr 1 <;> (try congr 1) <;> split_ifs <;> omega

theorem halves_mem (l n : ℕ) : ∀ s ∈ halves l n, n / 2 ^ l ≤ s ∧ s ≤ n / 2 ^ l + 1 := by
  intro s hs
  rw [← sizes_eq_halves, List.mem_map] at hs
  obtain ⟨p, _, rfl⟩ := hs
  unfold bucketSize
  split <;> omega

theorem bucketSizes_eq (l n : ℕ) : bucketSizes l n = .ok (halves l n) := by
  rw [bucketSizes, splitPoints_eq]
  exact congrArg Except.ok (sizes_eq_halves l n)

/-- **C30**: the rows of the table `split_points` can be computed without reading out of bounds, and row `l`
ranks the `2 ^ l` subtrees: it contains each of `1, ..., 2 ^ l` exactly once. -/
theorem c30_split_points_rank (l : ℕ) :
    ∃ sp, splitPoints l = .ok sp ∧ sp.Perm ((List.range (2 ^ l)).map (· + 1)) :=
  ⟨sps l, splitPoints_eq l, sps_perm l⟩

/-- **C30**: the bucket sizes sum to the number of items, differ by at most one, and are exactly the sizes
produced by `l` rounds of median splitting (where the right half gets the odd item), in the same
order. -/
theorem c30_bucket_sizes (l n : ℕ) :
    ∃ sizes, bucketSizes l n = .ok sizes ∧ sizes = halves l n ∧ sizes.length = 2 ^ l ∧ sizes.sum = n ∧
      ∀ a ∈ sizes, ∀ b ∈ sizes, a ≤ b + 1 := by
  refine ⟨halves l n, bucketSizes_eq l n, rfl, halves_length l n, halves_sum l n, ?_⟩
  intro a ha b hb
  have h1 := halves_mem l n a ha
  have h2 := halves_mem l n b hb
  omega

theorem inclusiveScan_length (acc : ℕ) (L : List ℕ) : (inclusiveScan acc L).length = L.length := by
  induction L generalizing acc with
  | nil => rfl
  | cons a L ih => simp [inclusiveScan, ih]

theorem inclusiveScan_getElem? (acc : ℕ) (L : List ℕ) (i : ℕ) (hi : i < L.length) :
    (inclusiveScan acc L)[i]? = some (acc + (L.take (i + 1)).sum) := by
  induction L generalizing acc i with
  | nil => simp at hi
  | cons a L ih =>
    match i with
    | 0 => simp [inclusiveScan]
    | i + 1 =>
      simp only [List.length_cons] at hi
      rw [inclusiveScan, List.getElem?_cons_succ, ih _ _ (by omega)]
      simp [List.take_succ_cons, add_assoc]

/-- **C30**: the end points handed to the subtrees cut the range of `n` items into consecutive intervals:
interval `i` is `[ends[i], ends[i+1])`, has the size of bucket `i`, the first starts at 0 and the last
ends at `n`. -/
theorem c30_endpoints (l n : ℕ) :
    ∃ ends, leftEndpoints l n = .ok ends ∧ ends.length = 2 ^ l + 1 ∧ ends[0]? = some 0 ∧
      ends[2 ^ l]? = some n ∧
      ∀ i, i < 2 ^ l → ∃ a s, ends[i]? = some a ∧ (halves l n)[i]? = some s ∧
        ends[i + 1]? = some (a + s) := by
  have hlen := halves_length l n
  have hg : ∀ i, i ≤ 2 ^ l →
      (inclusiveScan 0 (0 :: halves l n))[i]? = some (((halves l n).take i).sum) := by
    intro i hi
    rw [inclusiveScan_getElem? _ _ _ (by simp [hlen]; omega)]
    simp
  refine ⟨inclusiveScan 0 (0 :: halves l n), ?_, ?_, ?_, ?_, ?_⟩
  · rw [leftEndpoints, bucketSizes_eq]
    rfl
  · rw [inclusiveScan_length]
    simp [hlen]
  · rw [hg 0 (by omega)]
    simp
  · rw [hg _ le_rfl, ← hlen, List.take_length, halves_sum]
  · intro i hi
    have hi' : i < (halves l n).length := by omega
    refine ⟨_, (halves l n)[i], hg i (by omega), List.getElem?_eq_getElem hi', ?_⟩
    rw [hg (i + 1) (by omega), List.take_add_one, List.getElem?_eq_getElem hi', List.sum_append]
    simp

/-- Non-trivial instance: 13 items in 8 buckets. -/
example : bucketSizes 3 13 = .ok [1, 2, 1, 2, 1, 2, 2, 2] ∧ halves 3 13 = [1, 2, 1, 2, 1, 2, 2, 2] := by
  decide

example : leftEndpoints 2 7 = .ok [0, 1, 3, 5, 7] := by decide

end Verif.BatchKd
