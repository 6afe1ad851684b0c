import Verif.BatchKd.KnnProps
import Verif.LogTree.EraseLemmas

set_option linter.unusedSectionVars false
set_option linter.unusedVariables false

/-!
Nearest neighbours in several trees.
-/

namespace Verif.LogTree

open Verif BatchKd
open Verif.KnnBuf (KSmallest)
open Verif.KdTree (kSmallest_adequate Adequate kSmallest_map)

variable {α K : Type} {d : ℕ} [Field K] [LinearOrder K] [IsStrictOrderedRing K] {pos : α → Point K d}
  {nth : ℕ → List (K × α) → List (K × α)} {dist : Point K d → Point K d → K}

/-- The items of the trees that queries look at. -/
def treeItems (ts : List (Tree α K d)) : List α := ts.flatMap content

/-- The part of `out` of a query holds the `k` best of the items `I`. -/
structure Held (k : ℕ) (cost : α → K) (I : List α) (o : List (K × α)) : Prop where
  holds : BHolds k cost I ⟨k, o, true⟩
  len : k ≤ I.length
  best : ∃ keep, o = keep.map (fun p => (cost p, p)) ∧ KSmallest cost k I keep

theorem Held.length {k : ℕ} {cost : α → K} {I : List α} {o : List (K × α)} (h : Held k cost I o) : o.length = k := by
  obtain ⟨keep, h1, h2⟩ := h.best
  rw [h1, List.length_map, h2.1]

theorem knnStep_first (hn : NthPairs nth) (hdist : IsCoordDist dist) {t : Tree α K d} (hI : Inv pos t)
    (update recurse : Bool) {k : ℕ} (hk : 1 ≤ k) (hlen : k ≤ t.curSize) (q : Point K d) (o : List (K × α)) :
    ∃ o' I', knnStep pos nth dist update recurse k q false o t = .ok o' ∧
      Held k (fun x => dist q (pos x)) I' o' ∧ Ext k (fun x => dist q (pos x)) [] I' (content t) := by
  obtain ⟨b', I', h1, hc, h2, h3, h4, keep, h5, h6⟩ := knnInto_spec hn hdist hI (by omega) update recurse q []
    (BBuf.new k) (NBInv.new hk) (.inl hlen)
  have hb : b' = ⟨k, b'.elems, true⟩ := by
    obtain ⟨k', e, c⟩ := b'
    have := h2.hk
    simp only at this hc
    rw [this, hc]
  refine ⟨b'.elems, I', ?_, ⟨by rw [← hb]; exact h2, h3, keep, h5, h6⟩, h4⟩
  unfold knnStep
  have e : (⟨k, if false = true then o.take k else [], true⟩ : BBuf α K) = BBuf.new k := rfl
  rw [e, h1]
  rfl

theorem knnStep_next (hn : NthPairs nth) (hdist : IsCoordDist dist) {t : Tree α K d} (hI : Inv pos t)
    (h0 : t.curSize ≠ 0) (update recurse : Bool) {k : ℕ} (q : Point K d) {I : List α} {o : List (K × α)}
    (ho : Held k (fun x => dist q (pos x)) I o) :
    ∃ o' I', knnStep pos nth dist update recurse k q true o t = .ok o' ∧
      Held k (fun x => dist q (pos x)) I' o' ∧ Ext k (fun x => dist q (pos x)) I I' (content t) := by
  obtain ⟨b', I', h1, hc, h2, h3, h4, keep, h5, h6⟩ := knnInto_spec hn hdist hI h0 update recurse q I
    ⟨k, o, true⟩ ho.holds (.inr ho.len)
  have hb : b' = ⟨k, b'.elems, true⟩ := by
    obtain ⟨k', e, c⟩ := b'
    have := h2.hk
    simp only at this hc
    rw [this, hc]
  refine ⟨b'.elems, I', ?_, ⟨by rw [← hb]; exact h2, h3, keep, h5, h6⟩, h4⟩
  unfold knnStep
  rw [if_pos rfl, List.take_of_length_le (by rw [ho.length]), h1]
  rfl

theorem knnTrees_next (hn : NthPairs nth) (hdist : IsCoordDist dist) (update recurse : Bool) {k : ℕ} (q : Point K d) :
    ∀ (ts : List (Tree α K d)) (I : List α) (o : List (K × α)), (∀ t ∈ ts, Inv pos t ∧ t.curSize ≠ 0) →
      Held k (fun x => dist q (pos x)) I o →
      ∃ o' I', knnTrees pos nth dist update recurse k q true o ts = .ok o' ∧
        Held k (fun x => dist q (pos x)) I' o' ∧ Ext k (fun x => dist q (pos x)) I I' (treeItems ts)
  | [], I, o, _, ho => ⟨o, I, rfl, ho, Ext.none (by simp [treeItems])⟩
  | t :: ts, I, o, ht, ho => by
    obtain ⟨o1, I1, h1, h2, h3⟩ := knnStep_next hn hdist (ht t (by simp)).1 (ht t (by simp)).2 update recurse q ho
    obtain ⟨o2, I2, h4, h5, h6⟩ := knnTrees_next hn hdist update recurse q ts I1 o1 (fun t' h => ht t' (by simp [h])) h2
    refine ⟨o2, I2, ?_, h5, ?_⟩
    · rw [knnTrees, h1]
      exact h4
    · have := h3.trans h6
      rwa [show content t ++ treeItems ts = treeItems (t :: ts) from by simp [treeItems]] at this

/-- One query, one tree after the other: the first tree must have `k` items. -/
theorem knnTrees_ok (hn : NthPairs nth) (hdist : IsCoordDist dist) (update recurse : Bool) {k : ℕ} (hk : 1 ≤ k)
    (q : Point K d) {t : Tree α K d} {ts : List (Tree α K d)} (ht : ∀ t' ∈ t :: ts, Inv pos t' ∧ t'.curSize ≠ 0)
    (hlen : k ≤ t.curSize) :
    ∃ row, (knnTrees pos nth dist update recurse k q false [] (t :: ts)).bind (knnRow k) = .ok row ∧
      KSmallest (fun x => dist q (pos x)) k (treeItems (t :: ts)) row := by
  obtain ⟨o1, I1, h1, h2, h3⟩ := knnStep_first hn hdist (ht t (by simp)).1 update recurse hk hlen q []
  obtain ⟨o2, I2, h4, h5, h6⟩ := knnTrees_next hn hdist update recurse q ts I1 o1 (fun t' h => ht t' (by simp [h])) h2
  have hext := h3.trans h6
  rw [show content t ++ treeItems ts = treeItems (t :: ts) from by simp [treeItems]] at hext
  have hlen := h5.length
  obtain ⟨keep, h7, h8⟩ := h5.best
  refine ⟨keep, ?_, kSmallest_adequate h8 hext.adequate⟩
  rw [knnTrees, h1]
  show ((knnTrees pos nth dist update recurse k q true o1 ts).bind (knnRow k)) = _
  rw [h4]
  show knnRow k o2 = _
  unfold knnRow
  rw [if_pos hlen.ge, List.take_of_length_le hlen.le, h7, List.map_map]
  exact congrArg Except.ok (by simp [Function.comp_def])

/-- The first tree has too few items: the exception of `keepK`. -/
theorem knnTrees_throws (hn : NthPairs nth) (hdist : IsCoordDist dist) (update recurse : Bool) {k : ℕ}
    (q : Point K d) {t : Tree α K d} {ts : List (Tree α K d)} (hI : Inv pos t) (h0 : t.curSize ≠ 0)
    (hlen : t.curSize < k) :
    knnTrees pos nth dist update recurse k q false [] (t :: ts) = .error .throws := by
  obtain ⟨g1, g2⟩ := hI.root_live h0
  obtain ⟨b1, I1, h1, h2, h3⟩ := knnHelper_ok hn hdist update recurse t.root g1 [] (BBuf.new k)
    (NBInv.new (by omega : 1 ≤ k))
  rw [g2] at h3
  have hl : I1.length < k := by
    obtain ⟨S, R, e1, e2, -⟩ := h3
    have a := e1.length_eq
    have b := e2.length_eq
    simp only [List.nil_append, List.length_append] at a b
    have := hI.size
    omega
  have hstep : knnStep pos nth dist update recurse k q false [] t = .error .throws := by
    unfold knnStep
    have e : (⟨k, if false = true then ([] : List (K × α)).take k else [], true⟩ : BBuf α K) = BBuf.new k := rfl
    rw [e]
    unfold knnInto
    rw [h1]
    simp only [Except.bind]
    unfold BBuf.keepK
    rw [if_pos]
    · rfl
    · rw [h2.hk]
      by_contra hge
      have := (NBInv.len_iff h2).1 (by omega)
      rw [List.length_map] at this
      omega
  rw [knnTrees, hstep]
  rfl

/-! ### Combining the results of the parallel search -/

theorem insert_len {b b' : BBuf α K} {x : K × α} (hn : NthPairs nth) (hk : 1 ≤ b.k)
    (h : b.insert nth x = .ok b') :
    b'.k = b.k ∧ (if b.elems.length + 1 < 2 * b.k then b'.elems.length = b.elems.length + 1
      else b'.elems.length = b.k ∧ b'.cached = true) := by
  unfold BBuf.insert at h
  split at h
  · simp at h
  · rename_i hlt
    simp only [List.length_append, List.length_singleton] at h
    split at h
    · rename_i hge
      rw [if_neg (by omega)]
      cases hc : (⟨b.k, b.elems ++ [x], false⟩ : BBuf α K).keepK nth with
      | error e => rw [hc] at h; simp [Except.map] at h
      | ok r =>
        rw [hc] at h
        simp only [Except.map, Except.ok.injEq] at h
        obtain ⟨b2, r2⟩ := r
        have h3 := keepK_cached hc
        obtain ⟨g1, r', g2, -⟩ := keepK_core hn hk (l := b.elems ++ [x]) (by simp; omega)
        unfold BBuf.keepK at hc
        simp only [Bool.false_eq_true, if_false, g2] at hc
        rw [if_neg (by simp; omega), if_neg (by omega)] at hc
        simp only [Except.ok.injEq, Prod.mk.injEq] at hc
        simp only at h
        rw [← h, ← hc.1]
        exact ⟨rfl, g1, rfl⟩
    · rename_i hge
      rw [if_pos (by omega)]
      simp only [Except.ok.injEq] at h
      rw [← h]
      simp

theorem insertAll_ok (hn : NthPairs nth) {k : ℕ} : ∀ (L ins : List (K × α)) (b : BBuf α K), NBInv k ins b →
    ∃ b', insertAll nth L b = .ok b' ∧ NBInv k (ins ++ L) b'
  | [], ins, b, h => ⟨b, rfl, by simpa using h⟩
  | x :: L, ins, b, h => by
    obtain ⟨b1, h1, h2⟩ := h.insert hn x
    obtain ⟨b2, h3, h4⟩ := insertAll_ok hn L (ins ++ [x]) b1 h2
    refine ⟨b2, ?_, by simpa using h4⟩
    rw [insertAll, h1]
    exact h3

/-- Filling the second half of the buffer ends with `keepK`. -/
theorem insertAll_len (hn : NthPairs nth) {k : ℕ} (hk : 1 ≤ k) : ∀ (L ins : List (K × α)) (b b' : BBuf α K),
    NBInv k ins b → b.elems.length + L.length = 2 * k → insertAll nth L b = .ok b' →
    b'.elems.length = k ∧ b'.cached = true
  | [], ins, b, b', h, hl, _ => by
    have := h.len
    simp at hl
    omega
  | x :: L, ins, b, b', h, hl, hr => by
    obtain ⟨b1, h1, h2⟩ := h.insert hn x
    obtain ⟨h3, h4⟩ := insert_len hn (by rw [h.hk]; exact hk) h1
    rw [insertAll, h1] at hr
    have hr : insertAll nth L b1 = .ok b' := hr
    rw [List.length_cons] at hl
    rw [h.hk] at h4
    by_cases hlt : b.elems.length + 1 < 2 * k
    · rw [if_pos hlt] at h4
      exact insertAll_len hn hk L _ b1 b' h2 (by omega) hr
    · rw [if_neg hlt] at h4
      have hL : L = [] := List.eq_nil_of_length_eq_zero (by omega)
      subst hL
      simp only [insertAll, Except.ok.injEq] at hr
      rw [← hr]
      exact h4

theorem insertAll_append (L1 L2 : List (K × α)) (b : BBuf α K) :
    insertAll nth (L1 ++ L2) b = (insertAll nth L1 b).bind (insertAll nth L2) := by
  induction L1 generalizing b with
  | nil => rfl
  | cons x L ih =>
    rw [List.cons_append, insertAll, insertAll]
    cases b.insert nth x with
    | error e => rfl
    | ok b1 => exact ih b1

/-- The results of one tree. -/
def Best (k : ℕ) (cost : α → K) (all : List α) (o : List (K × α)) : Prop :=
  ∃ keep, o = keep.map (fun p => (cost p, p)) ∧ KSmallest cost k all keep

theorem insertAll_best (hn : NthPairs nth) {k : ℕ} (hk : 1 ≤ k) {cost : α → K} :
    ∀ (os : List (List (K × α))) (alls : List (List α)) (I all0 : List α) (b : BBuf α K),
      List.Forall₂ (fun all o => Best k cost all o) alls os → BHolds k cost I b → b.elems.length = k → b.cached = true →
      Adequate k cost I all0 →
      ∃ b' I', insertAll nth (os.flatMap fun o => o.take k) b = .ok b' ∧ BHolds k cost I' b' ∧ b'.elems.length = k ∧
        b'.cached = true ∧ Adequate k cost I' (all0 ++ alls.flatten)
  | _, _, I, all0, b, .nil, hb, hl, hc, ha => ⟨b, I, rfl, hb, hl, hc, by simpa using ha⟩
  | _, _, I, all0, b, .cons (a := all) (b := o) (l₁ := alls) (l₂ := os) ho hos, hb, hl, hc, ha => by
    obtain ⟨keep, h1, h2⟩ := ho
    have hol : o.length = k := by rw [h1, List.length_map, h2.1]
    obtain ⟨b1, h3, h4⟩ := insertAll_ok hn o _ b hb
    obtain ⟨h5, h6⟩ := insertAll_len hn hk o _ b b1 hb (by omega) h3
    have hb1 : BHolds k cost (I ++ keep) b1 := by
      unfold BHolds
      rw [List.map_append, ← h1]
      exact h4
    have ha1 : Adequate k cost (I ++ keep) (all0 ++ all) := by
      obtain ⟨R, r1, r2⟩ := ha
      obtain ⟨hkl, rest, r3, r4⟩ := h2
      refine ⟨R ++ rest, ?_, ?_⟩
      · refine List.Perm.trans ?_ (r1.append r3)
        simp only [List.append_assoc]
        apply List.Perm.append_left
        rw [← List.append_assoc, ← List.append_assoc]
        exact List.perm_append_comm.append_right _
      · intro y hy
        rw [List.countP_append]
        rcases List.mem_append.1 hy with hy | hy
        · exact (r2 y hy).trans (Nat.le_add_right _ _)
        · have : keep.countP (fun x => decide (cost x ≤ cost y)) = k := by
            rw [← hkl, List.countP_eq_length]
            intro x hx
            simpa using r4 x hx y hy
          omega
    obtain ⟨b2, I2, h7, h8, h9, h10, h11⟩ := insertAll_best hn hk os alls (I ++ keep) (all0 ++ all) b1 hos hb1 h5 h6 ha1
    refine ⟨b2, I2, ?_, h8, h9, h10, by simpa using h11⟩
    rw [List.flatMap_cons, insertAll_append, List.take_of_length_le hol.le, h3]
    exact h7

theorem knnPar_ok (hn : NthPairs nth) (hdist : IsCoordDist dist) (update recurse : Bool) {k : ℕ} (hk : 1 ≤ k)
    (q : Point K d) {ts : List (Tree α K d)} (hne : ts ≠ []) (ht : ∀ t ∈ ts, Inv pos t ∧ k ≤ t.curSize) :
    ∃ row, (ts.mapM (knnStep pos nth dist update recurse k q false [])).bind (combine nth k) = .ok row ∧
      KSmallest (fun x => dist q (pos x)) k (treeItems ts) row := by
  obtain ⟨os, h1, h2⟩ := mapM_forall₂
    (P := fun (t : Tree α K d) (o : List (K × α)) => ∃ I, Held k (fun x => dist q (pos x)) I o ∧
      Ext k (fun x => dist q (pos x)) [] I (content t)) ts
    (f := knnStep pos nth dist update recurse k q false []) fun t h => by
      obtain ⟨o, I, a, b, c⟩ := knnStep_first hn hdist (ht t h).1 update recurse hk (ht t h).2 q []
      exact ⟨o, a, I, b, c⟩
  rw [h1]
  show ∃ row, combine nth k os = .ok row ∧ _
  cases h2 with
  | nil => exact absurd rfl hne
  | @cons t o ts os ho hos =>
    obtain ⟨I, hI, hE⟩ := ho
    have hos' : List.Forall₂ (fun all o => Best k (fun x => dist q (pos x)) all o) (ts.map content) os := by
      rw [List.forall₂_map_left_iff]
      refine hos.imp ?_
      rintro t' o' ⟨I', hI', hE'⟩
      obtain ⟨keep, e1, e2⟩ := hI'.best
      exact ⟨keep, e1, kSmallest_adequate e2 hE'.adequate⟩
    have htake : o.take k = o := List.take_of_length_le hI.length.le
    obtain ⟨b', I', g1, g2, g3, g4, g5⟩ := insertAll_best hn hk os (ts.map content) I (content t) ⟨k, o, true⟩ hos'
      hI.holds hI.length rfl hE.adequate
    have hlen : k ≤ I'.length := by
      have := (NBInv.len_iff g2).1 g3.ge
      rwa [List.length_map] at this
    obtain ⟨b2, r, g6, g7, -, keep, g8, g9⟩ := g2.keepK hn hlen
    have hsame : b2 = b' := by
      unfold BBuf.keepK at g6
      rw [g2.hk, if_neg (by omega), g4, if_pos rfl, if_neg (by omega)] at g6
      split at g6
      · simp only [Except.ok.injEq, Prod.mk.injEq] at g6
        exact g6.1.symm
      · simp at g6
    rw [hsame] at g8
    refine ⟨keep, ?_, ?_⟩
    · rw [combine, htake, g1]
      show knnRow k b'.elems = _
      unfold knnRow
      rw [if_pos g3.ge, List.take_of_length_le g3.le, g8, List.map_map]
      exact congrArg Except.ok (by simp [Function.comp_def])
    · have := kSmallest_adequate g9 g5
      rw [show content t ++ (ts.map content).flatten = treeItems (t :: ts) from by
        simp [treeItems, List.flatMap]] at this
      exact this

end Verif.LogTree
