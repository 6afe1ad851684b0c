import Mathlib.Algebra.Order.BigOperators.Group.Finset
import Verif.LogTree.InsertLemmas
import Verif.BatchKd.EraseOneLemmas

set_option linter.unusedSectionVars false
set_option linter.unusedVariables false

/-!
Erasing from the log-structured tree.
-/

namespace Verif.LogTree

open Verif BatchKd

variable {α K : Type} {d : ℕ} [Field K] [LinearOrder K] {pos : α → Point K d}

/-! ### Masks -/

/-- A number is the sum of its bits. -/
theorem mask_sum (m : ℕ) : ∀ T, m % 2 ^ T = ∑ i ∈ Finset.range T, if m.testBit i then 2 ^ i else 0
  | 0 => by simp [Nat.mod_one]
  | T + 1 => by
    rw [Finset.sum_range_succ, ← mask_sum m T, mod_two_pow_succ]
    cases m.testBit T <;> simp

theorem mask_sum_lt {m T : ℕ} (h : m < 2 ^ T) : m = ∑ i ∈ Finset.range T, if m.testBit i then 2 ^ i else 0 := by
  rw [← mask_sum, Nat.mod_eq_of_lt h]

theorem unsetBit_testBit (m i j : ℕ) : (unsetBit m i).testBit j = (m.testBit j && !decide (j = i)) := by
  unfold unsetBit
  split
  · rename_i h
    rw [Nat.testBit_xor, Nat.testBit_two_pow]
    by_cases hj : j = i
    · subst hj; simp [h]
    · simp [hj, Ne.symm hj]
  · rename_i h
    by_cases hj : j = i
    · subst hj; simp [h]
    · simp [hj]

theorem foldl_unset (L : List ℕ) : ∀ (m j : ℕ), (L.foldl unsetBit m).testBit j = (m.testBit j && !decide (j ∈ L)) := by
  induction L with
  | nil => intro m j; simp
  | cons i L ih =>
    intro m j
    rw [List.foldl_cons, ih, unsetBit_testBit]
    by_cases h1 : j = i <;> by_cases h2 : j ∈ L <;> simp [h1, h2]

theorem foldl_unset_le {T m : ℕ} (L : List ℕ) (h : m < 2 ^ T) : L.foldl unsetBit m < 2 ^ T := by
  by_contra hc
  obtain ⟨j, hj, hb⟩ := Nat.exists_ge_and_testBit_of_ge_two_pow (Nat.le_of_not_lt hc)
  rw [foldl_unset] at hb
  rw [Bool.and_eq_true] at hb
  have := Nat.testBit_lt_two_pow (lt_of_lt_of_le h (Nat.pow_le_pow_right (by omega) hj))
  rw [this] at hb
  exact absurd hb.1 (by simp)

/-- The mask loses the weights of the trees that are taken out. -/
theorem foldl_unset_sum {T m : ℕ} (L : List ℕ) (h : m < 2 ^ T) :
    L.foldl unsetBit m + (∑ i ∈ Finset.range T, if m.testBit i = true ∧ i ∈ L then 2 ^ i else 0) = m := by
  conv_rhs => rw [mask_sum_lt h]
  rw [mask_sum_lt (foldl_unset_le L h), ← Finset.sum_add_distrib]
  refine Finset.sum_congr rfl fun i _ => ?_
  rw [foldl_unset]
  by_cases h1 : m.testBit i = true <;> by_cases h2 : i ∈ L <;> simp [h1, h2]

/-! ### Erasing from the trees -/

/-- What an erased batch does to one tree. -/
structure Erased (pos : α → Point K d) (pts : List (Point K d)) (t t' : Tree α K d) : Prop where
  inv : Inv pos t'
  max : t'.maxSize = t.maxSize
  sub : (content t').Sublist (content t)
  removed : ∃ R : List α, (content t).Perm (content t' ++ R) ∧ (R.map pos).Subperm pts
  search : SearchableT pos t → SearchableT pos t' ∧ content t' = eraseAll pos pts (content t)
  empty : t.curSize = 0 → t' = t

theorem erased_refl {t : Tree α K d} (hI : Inv pos t) (h0 : t.curSize = 0) (pts : List (Point K d)) :
    Erased pos pts t t := by
  have hct : content t = [] := List.eq_nil_of_length_eq_zero (hI.size.symm.trans h0)
  refine ⟨hI, rfl, List.Sublist.refl _, ⟨[], by simp, by simp⟩, fun h => ⟨h, ?_⟩, fun _ => rfl⟩
  rw [hct]
  exact (List.sublist_nil.1 (eraseAll_sublist pos pts [])).symm

variable {part : Fin d → K → List (Point K d) → List (Point K d)}

theorem erased_tree (bulk : Bool) (hpart : PartItems part (id : Point K d → Point K d)) {t : Tree α K d} (hI : Inv pos t)
    (pts : List (Point K d)) : ∃ t', eraseTree pos bulk part t pts = .ok t' ∧ Erased pos pts t t' := by
  cases bulk with
  | true =>
    obtain ⟨t', e, h1, h2, h3, h4, h5, h6⟩ := bulkErase_spec hpart hI pts
    exact ⟨t', e, h1, h2, h3, h4, h5, h6⟩
  | false =>
    obtain ⟨t', e, h1, h2, h3, h4, h5, h6⟩ := erasePoints_spec pts hI
    exact ⟨t', e, h1, h2, h3, h4, h5, h6⟩

theorem Erased.card_le {pts : List (Point K d)} {t t' : Tree α K d} (h : Erased pos pts t t') :
    t'.curSize ≤ (content t).length := by
  rw [h.inv.size]
  exact h.sub.length_le

theorem Erased.nonempty {pts : List (Point K d)} {t t' : Tree α K d} (h : Erased pos pts t t')
    (hx : ∃ x ∈ content t, pos x ∉ pts) : t'.curSize ≠ 0 := by
  obtain ⟨x, hx, hn⟩ := hx
  obtain ⟨R, h1, h2⟩ := h.removed
  have := h1.mem_iff.1 hx
  rw [List.mem_append] at this
  rcases this with h3 | h3
  · rw [h.inv.size]
    exact fun h0 => absurd h3 (by rw [List.eq_nil_of_length_eq_zero h0]; simp)
  · exact absurd (h2.subset (List.mem_map_of_mem h3)) hn

theorem eraseTrees_ok (bulk : Bool) (hpart : PartItems part (id : Point K d → Point K d)) (mask : ℕ) (pts : List (Point K d)) :
    ∀ (is : List ℕ) (trees : ℕ → Tree α K d), is.Nodup → (∀ i ∈ is, Inv pos (trees i)) →
      (∀ i ∈ is, mask.testBit i = false → (trees i).curSize = 0) →
      ∃ trees', eraseTrees pos bulk part mask pts is trees = .ok trees' ∧ (∀ i, i ∉ is → trees' i = trees i) ∧
        ∀ i ∈ is, Erased pos pts (trees i) (trees' i)
  | [], trees, _, _, _ => ⟨trees, rfl, fun _ _ => rfl, by simp⟩
  | i :: is, trees, hn, hI, h0 => by
    rw [List.nodup_cons] at hn
    have hstep : ∃ t, (if mask.testBit i then eraseTree pos bulk part (trees i) pts else .ok (trees i)) = .ok t ∧
        Erased pos pts (trees i) t := by
      by_cases hb : mask.testBit i = true
      · rw [if_pos hb]
        exact erased_tree bulk hpart (hI i (by simp)) pts
      · rw [if_neg hb]
        exact ⟨_, rfl, erased_refl (hI i (by simp)) (h0 i (by simp) (by simpa using hb)) pts⟩
    obtain ⟨t, ht, hE⟩ := hstep
    have hne : ∀ j ∈ is, j ≠ i := fun j hj h => hn.1 (h ▸ hj)
    obtain ⟨trees', h1, h2, h3⟩ := eraseTrees_ok bulk hpart mask pts is (Function.update trees i t) hn.2
      (fun j hj => by rw [Function.update_of_ne (hne j hj)]; exact hI j (by simp [hj]))
      (fun j hj hb => by rw [Function.update_of_ne (hne j hj)]; exact h0 j (by simp [hj]) hb)
    refine ⟨trees', ?_, ?_, ?_⟩
    · rw [eraseTrees, ht]
      exact h1
    · intro j hj
      rw [List.mem_cons, not_or] at hj
      rw [h2 j hj.2, Function.update_of_ne hj.1]
    · intro j hj
      rcases List.mem_cons.1 hj with rfl | hj
      · rw [h2 _ hn.1, Function.update_self]
        exact hE
      · have := h3 j hj
        rwa [Function.update_of_ne (hne j hj)] at this

/-! ### The whole operation -/

theorem total_clear {T : ℕ} (trees : ℕ → Tree α K d) {L : List ℕ} (hn : L.Nodup) (hL : ∀ j ∈ L, j < T) :
    total T (fun i => if i ∈ L then clear (trees i) else trees i) +
      ((L.flatMap fun j => content (trees j) : List α) : Multiset α) = total T trees := by
  rw [flatMap_sum, ← sum_mem_list T (fun j => (content (trees j) : Multiset α)) hn hL]
  unfold total
  rw [← Finset.sum_add_distrib]
  refine Finset.sum_congr rfl fun i _ => ?_
  by_cases h : i ∈ L
  · simp only [if_pos h, clear_content]
    simp
  · simp only [if_neg h, add_zero]

theorem length_flatMap_sum {T : ℕ} (g : ℕ → List α) {L : List ℕ} (hn : L.Nodup) (hL : ∀ j ∈ L, j < T) :
    (L.flatMap g).length = ∑ i ∈ Finset.range T, if i ∈ L then (g i).length else 0 := by
  have h1 : (L.flatMap g).length = (L.map fun j => (g j).length).sum := by
    induction L with
    | nil => rfl
    | cons j L ih =>
      rw [List.flatMap_cons, List.length_append, ih (List.nodup_cons.1 hn).2 (fun i hi => hL i (by simp [hi])),
        List.map_cons, List.sum_cons]
  rw [h1, ← List.sum_toFinset _ hn]
  have : (Finset.range T).filter (fun i => i ∈ L) = L.toFinset := by
    ext i
    simp only [Finset.mem_filter, Finset.mem_range, List.mem_toFinset]
    exact ⟨fun h => h.2, fun h => ⟨hL i h, h⟩⟩
  rw [← this, Finset.sum_filter]

theorem plan_le {B n b W : ℕ} (hB : 0 < B) (hb : b ≤ B) (h : 2 * n ≤ B * W) : (plan B n b).1 ≤ W := by
  unfold plan
  rcases Nat.eq_zero_or_pos n with rfl | hn
  · rw [if_neg (by simp; omega)]
    simp
  · have h1 : n / B < W := by
      rw [Nat.div_lt_iff_lt_mul hB, mul_comm]
      omega
    split
    · exact h1
    · exact h1.le

theorem erase_spec (bulk : Bool) {P : Params α K d} {Q : List α → Prop} (hs : Splits P.cs Q) (hb : Splits P.cb Q)
    (ord : List Move → List Move) (hord : ∀ l, (ord l).Perm l)
    (hpart : PartItems part (id : Point K d → Point K d)) {s : LT α K d} (hI : LInv pos P s) (hC : Clean s.buf)
    (pts : List (Point K d)) (hg : s.buf.curSize = 0 ∨ ∃ x ∈ content s.buf, pos x ∉ pts)
    (U : List α) (hU : (U : Multiset α) = stored P s) (hQ : Q U) :
    ∃ s' buf' trees', erase pos bulk P ord part s pts = .ok s' ∧ LInv pos P s' ∧ Clean s'.buf ∧
      Erased pos pts s.buf buf' ∧ (∀ i < P.numTrees, Erased pos pts (s.trees i) (trees' i)) ∧
      stored P s' = (content buf' : Multiset α) + total P.numTrees trees' ∧
      (Separates pos P.cs Q → Separates pos P.cb Q → AllSearchable pos P s → AllSearchable pos P s') := by
  have hBpos : 0 < P.B := by unfold Params.B; positivity
  -- the buffer
  have hbuf : ∃ t, (if s.buf.curSize = 0 then .ok s.buf else eraseTree pos bulk part s.buf pts) = .ok t ∧
      Erased pos pts s.buf t := by
    by_cases h0 : s.buf.curSize = 0
    · rw [if_pos h0]
      exact ⟨_, rfl, erased_refl hI.buf h0 pts⟩
    · rw [if_neg h0]
      exact erased_tree bulk hpart hI.buf pts
  obtain ⟨buf', hb1, hE⟩ := hbuf
  -- the trees
  obtain ⟨trees', ht1, -, ht2⟩ := eraseTrees_ok bulk hpart s.mask pts (List.range P.numTrees) s.trees List.nodup_range
    (fun i hi => hI.tr i (List.mem_range.1 hi)) (fun i hi h => (hI.empty i (List.mem_range.1 hi) h).1)
  have hT : ∀ i < P.numTrees, Erased pos pts (s.trees i) (trees' i) := fun i hi => ht2 i (List.mem_range.2 hi)
  set D := depleted P trees' with hD
  have hDn : D.Nodup := List.nodup_range.filter _
  have hDlt : ∀ j ∈ D, j < P.numTrees := fun j hj => List.mem_range.1 (List.mem_filter.1 hj).1
  have hDmem : ∀ i < P.numTrees, i ∈ D ↔ (trees' i).curSize ≤ treeSize P.log2 i / 2 := by
    intro i hi
    rw [hD, depleted, List.mem_filter, List.mem_range]
    simp [hi]
  have htake := takeOutAll_ok D trees' hDn fun j hj => (hT j (hDlt j hj)).inv
  set s1 : LT α K d := ⟨D.foldl unsetBit s.mask, buf', fun i => if i ∈ D then clear (trees' i) else trees' i⟩ with hs1
  set mv := D.flatMap fun j => content (trees' j) with hmv
  have hrun : erase pos bulk P ord part s pts = insert pos P ord s1 mv := by
    unfold erase
    rw [hb1]
    show Except.bind _ _ = _
    rw [ht1]
    show (takeOutAll trees' D).bind _ = _
    rw [htake]
    rfl
  -- the state between
  have hfalse : ∀ i < P.numTrees, s.mask.testBit i = false → i ∈ D := by
    intro i hi h
    rw [hDmem i hi, (hT i hi).empty (hI.empty i hi h).1, (hI.empty i hi h).1]
    exact Nat.zero_le _
  have hbit : ∀ i < P.numTrees, s1.mask.testBit i = !decide (i ∈ D) := by
    intro i hi
    show (D.foldl unsetBit s.mask).testBit i = _
    rw [foldl_unset]
    cases hm : s.mask.testBit i with
    | true => simp
    | false => simp [hfalse i hi hm]
  have hI1 : LInv pos P s1 := by
    refine ⟨foldl_unset_le D hI.mask, hE.inv, hE.max.trans hI.bufMax, ?_, ?_, ?_, ?_⟩
    · intro i hi
      show Inv pos (if i ∈ D then clear (trees' i) else trees' i)
      split
      · exact clear_inv (hT i hi).inv
      · exact (hT i hi).inv
    · intro i hi
      show (if i ∈ D then clear (trees' i) else trees' i).maxSize = _
      rw [← hI.trMax i hi, ← (hT i hi).max]
      split <;> rfl
    · intro i hi h
      have hnD : i ∉ D := by simpa [hbit i hi] using h
      show treeSize P.log2 i < 2 * (if i ∈ D then clear (trees' i) else trees' i).curSize
      rw [if_neg hnD]
      rw [hDmem i hi] at hnD
      omega
    · intro i hi h
      have hiD : i ∈ D := by simpa [hbit i hi] using h
      show (if i ∈ D then clear (trees' i) else trees' i).curSize = 0 ∧
        (if i ∈ D then clear (trees' i) else trees' i).present =
          List.replicate (if i ∈ D then clear (trees' i) else trees' i).maxSize true
      rw [if_pos hiD]
      exact ⟨rfl, clear_present (hT i hi).inv⟩
  have hC1 : Clean s1.buf := by
    intro h0
    rcases hg with h | h
    · have e : buf' = s.buf := hE.empty h
      have := hC h
      show buf'.present = List.replicate buf'.maxSize true
      rw [e]
      exact this
    · exact absurd h0 (hE.nonempty h)
  have hst : stored P s1 + (mv : Multiset α) = (content buf' : Multiset α) + total P.numTrees trees' := by
    unfold stored
    rw [add_assoc]
    congr 1
    exact total_clear trees' hDn hDlt
  have hle : (content buf' : Multiset α) + total P.numTrees trees' ≤ stored P s := by
    unfold stored
    refine add_le_add ?_ ?_
    · exact Multiset.coe_le.2 hE.sub.subperm
    · exact Finset.sum_le_sum fun i hi => Multiset.coe_le.2 (hT i (Finset.mem_range.1 hi)).sub.subperm
  obtain ⟨U', hU'⟩ : ∃ U' : List α, (U' : Multiset α) = stored P s1 + (mv : Multiset α) :=
    ⟨_, Multiset.coe_toList _⟩
  have hQ' : Q U' := by
    refine hs.sub U U' ?_ hQ
    rw [← Multiset.coe_le, hU', hst, hU]
    exact hle
  obtain ⟨f, rem, use, hp, -, -, hok⟩ := insert_spec hs hb ord hord hI1 hC1 mv U' hU' hQ'
  -- there is room
  have hroom : s1.mask + f < 2 ^ P.numTrees := by
    have hf : f ≤ ∑ i ∈ Finset.range P.numTrees, if s.mask.testBit i = true ∧ i ∈ D then 2 ^ i else 0 := by
      have : f = (plan P.B mv.length s1.buf.curSize).1 := by rw [hp]
      rw [this]
      refine plan_le hBpos ?_ ?_
      · rw [← hI1.bufMax]
        exact inv_size_le hI1.buf
      · rw [hmv, length_flatMap_sum _ hDn hDlt, Finset.mul_sum, Finset.mul_sum]
        refine Finset.sum_le_sum fun i hi => ?_
        rw [Finset.mem_range] at hi
        by_cases hiD : i ∈ D
        · rw [if_pos hiD, ← (hT i hi).inv.size]
          cases hm : s.mask.testBit i with
          | true =>
            rw [if_pos ⟨rfl, hiD⟩]
            have h1 := (hDmem i hi).1 hiD
            have h2 : treeSize P.log2 i = P.B * 2 ^ i := by
              unfold treeSize Params.B; rw [pow_add, mul_comm]
            rw [← h2]
            omega
          | false =>
            rw [(hT i hi).empty (hI.empty i hi hm).1, (hI.empty i hi hm).1]
            simp
        · simp [hiD]
    have := foldl_unset_sum (T := P.numTrees) D hI.mask
    have h3 := hI.mask
    show D.foldl unsetBit s.mask + f < _
    omega
  obtain ⟨s', h1, h2, h3, -, -, h6, -, h8⟩ := hok hroom
  refine ⟨s', buf', trees', hrun.trans h1, h2, h3, hE, hT, h6.trans hst, ?_⟩
  intro hS1 hS2 hA
  refine h8 hS1 hS2 ⟨(hE.search hA.1).1, fun i hi => ?_⟩
  show SearchableT pos (if i ∈ D then clear (trees' i) else trees' i)
  split
  · exact fun h => absurd rfl h
  · exact ((hT i hi).search (hA.2 i hi)).1

end Verif.LogTree
