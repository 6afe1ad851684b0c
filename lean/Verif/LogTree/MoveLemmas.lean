import Mathlib.Algebra.BigOperators.Group.Finset.Basic
import Mathlib.Algebra.Order.Group.Multiset
import Mathlib.Tactic.Abel
import Verif.BatchKd.StateLemmas
import Verif.LogTree.SimLemmas

set_option linter.unusedSectionVars false
set_option linter.unusedVariables false

/-!
Carrying out the moves of an insertion.
-/

namespace Verif.LogTree

open Verif BatchKd

variable {α K : Type} {d : ℕ} [Field K] [LinearOrder K] {pos : α → Point K d}

/-- What the build configuration needs on lists with property `Q`: both sides of a split are non-empty. -/
structure Splits (c : Cfg α K d) (Q : List α → Prop) : Prop where
  ok : SplitOK c
  sub : ∀ L L' : List α, L'.Subperm L → Q L → Q L'
  sides : ∀ dim L, Q L → c.leafSize < L.length → 0 < (c.split dim L).2.2 ∧ (c.split dim L).2.2 < L.length

/-- Splits that separate the two sides strictly. -/
def Separates (pos : α → Point K d) (c : Cfg α K d) (Q : List α → Prop) : Prop :=
  ∀ dim L, Q L → c.leafSize < L.length →
    (∀ x ∈ (c.split dim L).1.take (c.split dim L).2.2, pos x dim < (c.split dim L).2.1) ∧
    (∀ x ∈ (c.split dim L).1.drop (c.split dim L).2.2, (c.split dim L).2.1 ≤ pos x dim)

theorem takeOut_ok {t : Tree α K d} (hI : Inv pos t) : takeOut t = .ok (content t, clear t) := by
  unfold takeOut
  rw [if_pos]
  · rfl
  · exact hI.size.symm

theorem clear_inv {t : Tree α K d} (hI : Inv pos t) : Inv pos (clear t) where
  lenI := hI.lenI
  lenP := by simp [clear, hI.lenP]
  bs := Nat.zero_le _
  good := fun h => absurd rfl h
  size := by rw [clear_content]; rfl

theorem clear_present {t : Tree α K d} (hI : Inv pos t) :
    (clear t).present = List.replicate (clear t).maxSize true := by
  simp [clear, hI.lenP]

theorem takeOutAll_ok : ∀ (js : List ℕ) (trees : ℕ → Tree α K d), js.Nodup → (∀ j ∈ js, Inv pos (trees j)) →
    takeOutAll trees js = .ok (js.flatMap fun j => content (trees j),
      fun i => if i ∈ js then clear (trees i) else trees i)
  | [], trees, _, _ => by simp [takeOutAll]
  | j :: js, trees, hn, hI => by
    rw [List.nodup_cons] at hn
    have hne : ∀ i ∈ js, i ≠ j := fun i hi h => hn.1 (h ▸ hi)
    rw [takeOutAll, takeOut_ok (hI j (by simp))]
    show Except.map _ _ = _
    rw [takeOutAll_ok js _ hn.2 fun i hi => by
      rw [Function.update_of_ne (hne i hi)]
      exact hI i (by simp [hi])]
    show Except.ok _ = _
    refine congrArg Except.ok (Prod.ext ?_ ?_)
    · simp only [List.flatMap_cons]
      congr 1
      refine List.flatMap_congr fun i hi => ?_
      rw [Function.update_of_ne (hne i hi)]
    · funext i
      simp only [List.mem_cons]
      by_cases h1 : i = j
      · subst h1
        rw [if_neg hn.1, if_pos (Or.inl rfl), Function.update_self]
      · rw [Function.update_of_ne h1]
        by_cases h2 : i ∈ js
        · rw [if_pos h2, if_pos (Or.inr h2)]
        · rw [if_neg h2, if_neg (by tauto)]

/-- The points of a move. -/
def movePts (pts : List α) (m : Move) : List α := (pts.drop m.start.toNat).take (m.stop - m.start).toNat

/-- All items of a move. -/
def moveItems (pts bufPts : List α) (trees : ℕ → Tree α K d) (m : Move) : List α :=
  (m.trees.flatMap fun j => content (trees j)) ++ movePts pts m ++ if m.usesBuffer then bufPts else []

/-- What a move needs. -/
structure MoveReady (pos : α → Point K d) (T : ℕ) (Q : List α → Prop) (pts bufPts : List α) (trees : ℕ → Tree α K d)
    (m : Move) : Prop where
  tgt : m.target < T
  trs : ∀ j ∈ m.trees, j < T
  nodup : m.trees.Nodup
  out : m.target ∉ m.trees
  slice : 0 ≤ m.start ∧ m.start ≤ m.stop ∧ m.stop ≤ pts.length
  empty : (trees m.target).curSize = 0
  flags : (trees m.target).present = List.replicate (trees m.target).maxSize true
  len : (moveItems pts bufPts trees m).length ≤ (trees m.target).maxSize
  q : Q (moveItems pts bufPts trees m)

/-- The new tree of a move. -/
structure NewTree (pos : α → Point K d) (c : Cfg α K d) (Q : List α → Prop) (old : Tree α K d) (items : List α)
    (t : Tree α K d) : Prop where
  inv : Inv pos t
  perm : (content t).Perm items
  size : t.curSize = items.length
  max : t.maxSize = old.maxSize
  flags : t.present = old.present
  search : Separates pos c Q → SearchableT pos t

theorem doMove_ok {P : Params α K d} {Q : List α → Prop} (hS : Splits P.cs Q) {pts bufPts : List α}
    {trees : ℕ → Tree α K d} {m : Move} (hI : ∀ i < P.numTrees, Inv pos (trees i))
    (hm : MoveReady pos P.numTrees Q pts bufPts trees m) :
    ∃ t, doMove pos P pts bufPts trees m =
        .ok (fun i => if i = m.target then t else if i ∈ m.trees then clear (trees i) else trees i) ∧
      NewTree pos P.cs Q (trees m.target) (moveItems pts bufPts trees m) t := by
  have hT := hI _ hm.tgt
  unfold doMove
  rw [takeOutAll_ok m.trees trees hm.nodup fun j hj => hI j (hm.trs j hj)]
  have hsl : slicePts pts m.start m.stop = .ok (movePts pts m) := by
    unfold slicePts
    rw [if_pos hm.slice]
    rfl
  have htr : (fun i => if i ∈ m.trees then clear (trees i) else trees i) m.target = trees m.target := if_neg hm.out
  have hq := hm.q
  have hl := hm.len
  obtain ⟨t, ht⟩ := buildPoints_ok (pos := pos) (d0 := P.d0) hS.ok Q hS.sub hS.sides (t := trees m.target)
    (pts := moveItems pts bufPts trees m) (by rw [hT.lenI]; exact hl) hq
  obtain ⟨b1, b2, b3, b4, b5, b6⟩ := buildPoints_inv hS.ok hT.lenI hT.lenP
    (by rw [hm.flags]; exact take_replicate_true hl) hl ht
  refine ⟨t, ?_, b1, b2, b3, b4, b5, fun hsep => b6 Q hS.sub hsep hq⟩
  simp only [Except.bind, hsl, htr]
  rw [show ((m.trees.flatMap fun j => content (trees j)) ++ movePts pts m ++ if m.usesBuffer = true then bufPts else []) =
    moveItems pts bufPts trees m from rfl, ht]
  simp only [Except.map, Except.ok.injEq]
  funext i
  by_cases hi : i = m.target
  · subst hi
    rw [Function.update_self, if_pos rfl]
  · rw [Function.update_of_ne hi, if_neg hi]

/-- All items of the static trees. -/
def total (T : ℕ) (trees : ℕ → Tree α K d) : Multiset α :=
  ∑ i ∈ Finset.range T, (content (trees i) : Multiset α)

theorem flatMap_sum (g : ℕ → List α) (L : List ℕ) :
    ((L.flatMap g : List α) : Multiset α) = (L.map fun j => (g j : Multiset α)).sum := by
  induction L with
  | nil => rfl
  | cons j L ih => rw [List.flatMap_cons, List.map_cons, List.sum_cons, ← ih, ← Multiset.coe_add]

theorem sum_mem_list (T : ℕ) (g : ℕ → Multiset α) {L : List ℕ} (hn : L.Nodup) (hL : ∀ j ∈ L, j < T) :
    (∑ i ∈ Finset.range T, if i ∈ L then g i else 0) = (L.map g).sum := by
  rw [← List.sum_toFinset g hn]
  have : (Finset.range T).filter (fun i => i ∈ L) = L.toFinset := by
    ext i
    simp only [Finset.mem_filter, Finset.mem_range, List.mem_toFinset]
    exact ⟨fun h => h.2, fun h => ⟨hL i h, h⟩⟩
  rw [← this, Finset.sum_filter]

theorem total_move {P : Params α K d} {Q : List α → Prop} {pts bufPts : List α}
    {trees : ℕ → Tree α K d} {m : Move} {t : Tree α K d} (hI : ∀ i < P.numTrees, Inv pos (trees i))
    (hm : MoveReady pos P.numTrees Q pts bufPts trees m)
    (ht : (content t).Perm (moveItems pts bufPts trees m)) :
    total P.numTrees (fun i => if i = m.target then t else if i ∈ m.trees then clear (trees i) else trees i) =
      total P.numTrees trees + (movePts pts m : Multiset α) + (if m.usesBuffer then (bufPts : Multiset α) else 0) := by
  have hz : content (trees m.target) = [] :=
    List.eq_nil_of_length_eq_zero ((hI _ hm.tgt).size.symm.trans hm.empty)
  set g : ℕ → Multiset α := fun i => (content (trees i) : Multiset α) with hg
  have key : total P.numTrees (fun i => if i = m.target then t else if i ∈ m.trees then clear (trees i) else trees i) +
      (∑ i ∈ Finset.range P.numTrees, if i ∈ m.trees then g i else 0) =
      total P.numTrees trees + ∑ i ∈ Finset.range P.numTrees, if i = m.target then (content t : Multiset α) else 0 := by
    unfold total
    rw [← Finset.sum_add_distrib, ← Finset.sum_add_distrib]
    refine Finset.sum_congr rfl fun i _ => ?_
    beta_reduce
    by_cases h1 : i = m.target
    · subst h1
      rw [if_pos rfl, if_neg hm.out, if_pos rfl, hz]
      simp
    · rw [if_neg h1, if_neg h1]
      by_cases h2 : i ∈ m.trees
      · rw [if_pos h2, if_pos h2, clear_content]
        simp [hg]
      · rw [if_neg h2, if_neg h2]
  rw [sum_mem_list P.numTrees g hm.nodup hm.trs, Finset.sum_ite_eq' (Finset.range P.numTrees) m.target,
    if_pos (Finset.mem_range.mpr hm.tgt), Multiset.coe_eq_coe.mpr ht] at key
  unfold moveItems at key
  rw [← Multiset.coe_add, ← Multiset.coe_add, flatMap_sum] at key
  have h3 : ((if m.usesBuffer = true then bufPts else [] : List α) : Multiset α) =
      if m.usesBuffer = true then (bufPts : Multiset α) else 0 := by
    split <;> rfl
  rw [h3] at key
  refine add_right_cancel (b := (m.trees.map g).sum) (key.trans ?_)
  simp only [hg]
  abel

theorem doMoves_ok {P : Params α K d} {Q : List α → Prop} (hS : Splits P.cs Q) (pts bufPts : List α) :
    ∀ (ms : List Move) (trees : ℕ → Tree α K d), (∀ i < P.numTrees, Inv pos (trees i)) →
      (∀ m ∈ ms, MoveReady pos P.numTrees Q pts bufPts trees m) → (ms.map Move.target).Nodup →
      (ms.flatMap Move.trees).Nodup → (∀ m ∈ ms, ∀ m' ∈ ms, m.target ∉ m'.trees) →
      ∃ trees', doMoves pos P pts bufPts ms trees = .ok trees' ∧
        (∀ m ∈ ms, NewTree pos P.cs Q (trees m.target) (moveItems pts bufPts trees m) (trees' m.target)) ∧
        (∀ j, (∃ m ∈ ms, j ∈ m.trees) → trees' j = clear (trees j)) ∧
        (∀ i, (∀ m ∈ ms, i ≠ m.target ∧ i ∉ m.trees) → trees' i = trees i) ∧
        total P.numTrees trees' = total P.numTrees trees + (ms.map fun m => (movePts pts m : Multiset α)).sum +
          (ms.countP fun m => m.usesBuffer) • (bufPts : Multiset α)
  | [], trees, _, _, _, _, _ => ⟨trees, rfl, by simp, by simp, fun _ _ => rfl, by simp⟩
  | m :: ms, trees, hI, hR, hT, hG, hD => by
    have hRm := hR m (by simp)
    obtain ⟨t, ht, hN⟩ := doMove_ok hS hI hRm
    set trees1 : ℕ → Tree α K d :=
      fun i => if i = m.target then t else if i ∈ m.trees then clear (trees i) else trees i with h1
    rw [List.map_cons, List.nodup_cons] at hT
    rw [List.flatMap_cons, List.nodup_append] at hG
    -- later moves do not see this one
    have htgt : ∀ m' ∈ ms, trees1 m'.target = trees m'.target := by
      intro m' hm'
      rw [h1]
      simp only
      rw [if_neg, if_neg]
      · exact hD m' (by simp [hm']) m (by simp)
      · intro h
        exact hT.1 (h ▸ List.mem_map.mpr ⟨m', hm', rfl⟩)
    have htrs : ∀ m' ∈ ms, ∀ j ∈ m'.trees, trees1 j = trees j := by
      intro m' hm' j hj
      rw [h1]
      simp only
      rw [if_neg, if_neg]
      · intro h
        exact hG.2.2 j h j (List.mem_flatMap.mpr ⟨m', hm', hj⟩) rfl
      · rintro rfl
        exact hD m (by simp) m' (by simp [hm']) hj
    have hitems : ∀ m' ∈ ms, moveItems pts bufPts trees1 m' = moveItems pts bufPts trees m' := by
      intro m' hm'
      unfold moveItems
      congr 2
      exact List.flatMap_congr fun j hj => by rw [htrs m' hm' j hj]
    have hI1 : ∀ i < P.numTrees, Inv pos (trees1 i) := by
      intro i hi
      rw [h1]
      simp only
      by_cases e1 : i = m.target
      · rw [if_pos e1]; exact hN.inv
      · rw [if_neg e1]
        by_cases e2 : i ∈ m.trees
        · rw [if_pos e2]; exact clear_inv (hI i hi)
        · rw [if_neg e2]; exact hI i hi
    obtain ⟨trees', r1, r2, r3, r4, r5⟩ := doMoves_ok hS pts bufPts ms trees1 hI1 (by
      intro m' hm'
      have h := hR m' (by simp [hm'])
      exact ⟨h.tgt, h.trs, h.nodup, h.out, h.slice, by rw [htgt m' hm']; exact h.empty,
        by rw [htgt m' hm']; exact h.flags, by rw [htgt m' hm', hitems m' hm']; exact h.len,
        by rw [hitems m' hm']; exact h.q⟩) hT.2 hG.2.1
      (fun a ha b hb => hD a (by simp [ha]) b (by simp [hb]))
    refine ⟨trees', ?_, ?_, ?_, ?_, ?_⟩
    · rw [doMoves, ht]
      exact r1
    · intro m' hm'
      rcases List.mem_cons.mp hm' with rfl | hm'
      · rw [r4 m'.target]
        · rw [h1]
          simp only [if_true]
          exact hN
        · intro b hb
          refine ⟨fun h => hT.1 (h ▸ List.mem_map.mpr ⟨b, hb, rfl⟩), hD m' (by simp) b (by simp [hb])⟩
      · have := r2 m' hm'
        rwa [htgt m' hm', hitems m' hm'] at this
    · rintro j ⟨m', hm', hj⟩
      rcases List.mem_cons.mp hm' with rfl | hm'
      · rw [r4 j]
        · rw [h1]
          simp only
          rw [if_neg, if_pos hj]
          rintro rfl
          exact hRm.out hj
        · intro b hb
          refine ⟨?_, ?_⟩
          · rintro rfl
            exact hD b (by simp [hb]) m' (by simp) hj
          · intro h
            exact hG.2.2 j hj j (List.mem_flatMap.mpr ⟨b, hb, h⟩) rfl
      · rw [r3 j ⟨m', hm', hj⟩, htrs m' hm' j hj]
    · intro i hi
      have := hi m (by simp)
      rw [r4 i fun b hb => hi b (by simp [hb]), h1]
      simp only
      rw [if_neg this.1, if_neg this.2]
    · rw [r5, total_move hI hRm hN.perm, List.map_cons, List.sum_cons, List.countP_cons]
      cases m.usesBuffer
      · simp
        abel
      · simp [add_nsmul]
        abel

end Verif.LogTree
