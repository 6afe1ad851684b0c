import Mathlib.Data.Multiset.UnionInter
import Verif.BatchKd.SplitLemmas
import Verif.BatchKd.EraseLemmas
import Verif.BatchKd.QueryLemmas

set_option linter.unusedSectionVars false
set_option linter.unusedVariables false

/-! Invariants of the whole batch kd-tree and the effect of its operations. -/

namespace Verif.BatchKd

variable {α K : Type} {d : ℕ}

/-- Specification: the present items of a tree (those whose flag is set among the first `build_size`). -/
def content (t : Tree α K d) : List α :=
  (((t.items.zip t.present).take t.buildSize).filter fun x => x.2).map fun x => x.1

theorem content_eq (t : Tree α K d) : content t = live t.items t.present 0 t.buildSize := by
  simp [content, live, slots]

section
variable [Field K] [LinearOrder K]

/-- Invariant of a tree. -/
structure Inv (pos : α → Point K d) (t : Tree α K d) : Prop where
  lenI : t.items.length = t.maxSize
  lenP : t.present.length = t.maxSize
  bs : t.buildSize ≤ t.maxSize
  good : t.curSize ≠ 0 →
    Good pos t.items t.present t.root ∧ t.root.start = 0 ∧ t.root.stop = t.buildSize
  size : t.curSize = (content t).length

/-- The part of the invariant that the queries use; the item array may be shorter than the capacity. -/
structure QInv (pos : α → Point K d) (t : Tree α K d) : Prop where
  good : t.curSize ≠ 0 →
    Good pos t.items t.present t.root ∧ t.root.start = 0 ∧ t.root.stop = t.buildSize
  size : t.curSize = (content t).length

theorem Inv.q {pos : α → Point K d} {t : Tree α K d} (h : Inv pos t) : QInv pos t := ⟨h.good, h.size⟩

/-- An empty tree has all flags set, as the next build expects. -/
def Clean (t : Tree α K d) : Prop := t.curSize = 0 → t.present = List.replicate t.maxSize true

/-- Every item can be found by walking down. -/
def SearchableT (pos : α → Point K d) (t : Tree α K d) : Prop :=
  t.curSize ≠ 0 → Searchable pos t.items t.present t.root

/-- What a configuration needs: contracts of the partition, and strict two-sided splits of lists without
equal coordinates. -/
structure CfgGood (pos : α → Point K d) (c : Cfg α K d) : Prop where
  ok : SplitOK c
  strict : ∀ dim L, DistinctCoords pos L → c.leafSize < L.length →
    (∀ x ∈ (c.split dim L).1.take (c.split dim L).2.2, pos x dim < (c.split dim L).2.1) ∧
    (∀ x ∈ (c.split dim L).1.drop (c.split dim L).2.2, (c.split dim L).2.1 ≤ pos x dim)
  sides : ∀ dim L, DistinctCoords pos L → c.leafSize < L.length →
    0 < (c.split dim L).2.2 ∧ (c.split dim L).2.2 < L.length

variable {pos : α → Point K d} {c : Cfg α K d} {d0 : Fin d}

theorem slots_fresh (out items : List α) (present : List Bool)
    (hn : out.length ≤ items.length) (hlen : items.length = present.length)
    (hp : present.take out.length = List.replicate out.length true) :
    slots (out ++ items.drop out.length) present 0 out.length = out.map fun x => (x, true) := by
  unfold slots
  rw [List.drop_zero, Nat.sub_zero, List.zip, List.take_zipWith, List.take_left', hp]
  · clear hp hn hlen
    induction out with
    | nil => rfl
    | cons x out ih => simpa [List.replicate_succ] using ih
  · rfl

theorem buildPoints_inv (hc : SplitOK c) {t t' : Tree α K d} {pts : List α}
    (hI : t.items.length = t.maxSize) (hP : t.present.length = t.maxSize)
    (hfl : t.present.take pts.length = List.replicate pts.length true)
    (hlen : pts.length ≤ t.maxSize) (h : buildPoints pos c d0 t pts = .ok t') :
    Inv pos t' ∧ (content t').Perm pts ∧ t'.curSize = pts.length ∧ t'.maxSize = t.maxSize ∧
    t'.present = t.present ∧
    ∀ P : List α → Prop, (∀ L L' : List α, L'.Subperm L → P L → P L') →
      (∀ dim L, P L → c.leafSize < L.length →
        (∀ x ∈ (c.split dim L).1.take (c.split dim L).2.2, pos x dim < (c.split dim L).2.1) ∧
        (∀ x ∈ (c.split dim L).1.drop (c.split dim L).2.2, (c.split dim L).2.1 ≤ pos x dim)) →
      P pts → SearchableT pos t' := by
  unfold buildPoints at h
  rw [if_neg (by omega)] at h
  unfold buildAll at h
  simp only [List.take_left] at h
  cases hb : buildRec c pos (stalePos pos (pts ++ t.items.drop pts.length)) (pts.length + 1) 0 0 d0 pts with
  | error e => rw [hb] at h; cases h
  | ok r =>
    rw [hb] at h
    simp only [Except.map, Except.ok.injEq, List.drop_left] at h
    obtain ⟨root, out⟩ := r
    obtain ⟨hperm, hs, he⟩ := buildRec_shape hc hb
    rw [Nat.zero_add] at he
    have hol := hperm.length_eq
    simp only at h
    subst h
    have hsl : slots (out ++ t.items.drop pts.length) t.present 0 (0 + pts.length) =
        out.map fun x => (x, true) := by
      rw [Nat.zero_add, ← hol]
      exact slots_fresh out t.items t.present (by omega) (by omega) (by rw [hol]; exact hfl)
    have hll : (out ++ t.items.drop pts.length).length = t.maxSize := by
      rw [List.length_append, List.length_drop]
      omega
    have hct : live (out ++ t.items.drop pts.length) t.present 0 pts.length = out := by
      have := live_of_slots hsl
      rwa [Nat.zero_add] at this
    refine ⟨⟨hll, hP, hlen, fun _ => ⟨?_, hs, he⟩, ?_⟩, ?_, rfl, rfl, rfl, ?_⟩
    · exact (buildRec_good hc (fun _ => True) (fun _ _ _ _ => trivial) hb (hll.trans hP.symm) (by omega)
        hsl).1
    · rw [content_eq]
      simp only [hct]
      exact hol.symm
    · rw [content_eq]
      simp only [hct]
      exact hperm
    · intro P hPs hst hPp _
      exact (buildRec_good hc P hPs hb (hll.trans hP.symm) (by omega) hsl).2 hst hPp

theorem buildPoints_ok (hc : SplitOK c) (P : List α → Prop)
    (hP : ∀ L L' : List α, L'.Subperm L → P L → P L')
    (hm : ∀ dim L, P L → c.leafSize < L.length →
      0 < (c.split dim L).2.2 ∧ (c.split dim L).2.2 < L.length) {t : Tree α K d} {pts : List α}
    (hlen : pts.length ≤ t.items.length) (hp : P pts) : ∃ t', buildPoints pos c d0 t pts = .ok t' := by
  unfold buildPoints buildAll
  rw [if_neg (by omega)]
  simp only [List.take_left]
  obtain ⟨r, hr⟩ := buildRec_ok (pos := pos) (stale := stalePos pos (pts ++ t.items.drop pts.length)) hc P hP hm
    (fuel := pts.length + 1) 0 0 d0 pts hp (by omega)
  rw [hr]
  exact ⟨_, rfl⟩

theorem clear_content (t : Tree α K d) : content (clear t) = [] := by
  simp [content, clear]

theorem take_replicate_true {m n : ℕ} (h : n ≤ m) :
    (List.replicate m true).take n = List.replicate n true := by
  rw [List.take_replicate, Nat.min_eq_left h]

/-- `insert`: when it returns, everything is stored. -/
theorem insert_inv (hc : SplitOK c) {t t' : Tree α K d} {pts : List α} (hI : Inv pos t) (hC : Clean t)
    (hlen : t.curSize + pts.length ≤ t.maxSize) (h : insert pos c d0 t pts = .ok t') :
    Inv pos t' ∧ Clean t' ∧ (content t').Perm (content t ++ pts) ∧ t'.maxSize = t.maxSize ∧
    ∀ P : List α → Prop, (∀ L L' : List α, L'.Subperm L → P L → P L') →
      (∀ dim L, P L → c.leafSize < L.length →
        (∀ x ∈ (c.split dim L).1.take (c.split dim L).2.2, pos x dim < (c.split dim L).2.1) ∧
        (∀ x ∈ (c.split dim L).1.drop (c.split dim L).2.2, (c.split dim L).2.1 ≤ pos x dim)) →
      P (content t ++ pts) → SearchableT pos t → SearchableT pos t' := by
  unfold insert at h
  split at h
  · rename_i h0
    cases h
    have : pts = [] := List.eq_nil_of_length_eq_zero h0
    subst this
    exact ⟨hI, hC, by simp, rfl, fun _ _ _ _ h => h⟩
  · rename_i hp0
    split at h
    · rename_i h0
      have hpr := hC h0
      have hct : content t = [] := List.eq_nil_of_length_eq_zero (hI.size.symm.trans h0)
      obtain ⟨a1, a2, a3, a4, a5, a6⟩ := buildPoints_inv hc hI.lenI hI.lenP
        (by rw [hpr, take_replicate_true (by omega)]) (by omega) h
      refine ⟨a1, ?_, by rw [hct]; exact a2, a4, fun P hP hs hp _ => a6 P hP hs (by rwa [hct] at hp)⟩
      intro h
      omega
    · rename_i h0
      simp only at h
      split at h
      · cases h
      · have hg : (moveElements t).1 = content t := rfl
        have hs := hI.size
        obtain ⟨a1, a2, a3, a4, a5, a6⟩ := buildPoints_inv hc (t := (moveElements t).2) hI.lenI
          (by simpa [moveElements, clear] using hI.lenP)
          (by
            show (List.replicate t.present.length true).take _ = _
            rw [take_replicate_true]
            rw [hg, List.length_append, hI.lenP]
            omega) (by
            show _ ≤ t.maxSize
            rw [hg, List.length_append]
            omega) h
        refine ⟨a1, ?_, a2, a4, fun P hP hs hp _ => a6 P hP hs hp⟩
        intro h
        rw [a3, List.length_append] at h
        omega

theorem insert_ok (hc : SplitOK c) (P : List α → Prop)
    (hP : ∀ L L' : List α, L'.Subperm L → P L → P L')
    (hm : ∀ dim L, P L → c.leafSize < L.length →
      0 < (c.split dim L).2.2 ∧ (c.split dim L).2.2 < L.length) {t : Tree α K d} {pts : List α}
    (hI : Inv pos t) (hlen : t.curSize + pts.length ≤ t.maxSize) (hp : P (content t ++ pts)) :
    ∃ t', insert pos c d0 t pts = .ok t' := by
  have hs := hI.size
  have hl := hI.lenI
  unfold insert
  split
  · exact ⟨_, rfl⟩
  · split
    · exact buildPoints_ok hc P hP hm (by omega) (hP _ _ (List.sublist_append_right _ _).subperm hp)
    · have hg : (moveElements t).1 = content t := rfl
      simp only
      rw [if_neg (by rw [hg]; omega)]
      refine buildPoints_ok hc P hP hm ?_ hp
      show _ ≤ t.items.length
      rw [hg, List.length_append]
      omega

variable {part : Fin d → K → List (Point K d) → List (Point K d)}

/-- `bulk_erase` of the base class. -/
theorem bulkErase_spec (hpart : PartItems part (id : Point K d → Point K d)) {t : Tree α K d}
    (hI : Inv pos t) (pts : List (Point K d)) :
    ∃ t', bulkErase pos part t pts = .ok t' ∧ Inv pos t' ∧ t'.maxSize = t.maxSize ∧
      (content t').Sublist (content t) ∧
      (∃ R : List α, (content t).Perm (content t' ++ R) ∧ (R.map pos).Subperm pts) ∧
      (SearchableT pos t → SearchableT pos t' ∧ content t' = eraseAll pos pts (content t)) ∧
      (t.curSize = 0 → t' = t) := by
  unfold bulkErase
  by_cases h0 : t.curSize = 0
  · rw [if_pos h0]
    have hct : content t = [] := List.eq_nil_of_length_eq_zero (hI.size.symm.trans h0)
    refine ⟨t, rfl, hI, rfl, List.Sublist.refl _, ⟨[], by simp, by simp⟩, fun h => ⟨h, ?_⟩, fun _ => rfl⟩
    rw [hct]
    exact (List.sublist_nil.1 (eraseAll_sublist pos pts [])).symm
  · rw [if_neg h0]
    obtain ⟨hg, hs, he⟩ := hI.good h0
    have hsz := hI.size
    obtain ⟨p', k, st, ret, e1, O⟩ := eraseAt_spec hpart t.root t.present pts
      (hI.lenI.trans hI.lenP.symm).le hg
    rw [e1]
    have hE := O.er
    rw [hs, he] at hE
    have hct : content { t with
        present := p'
        root := st
        curSize := t.curSize - k } = live t.items p' 0 t.buildSize := by
      rw [content_eq]
    refine ⟨_, rfl, ⟨hI.lenI, hE.len.trans hI.lenP, hI.bs, fun _ => ⟨O.good, O.start.trans hs,
      O.stop.trans he⟩, ?_⟩, rfl, ?_, ?_, ?_, fun h => absurd h h0⟩
    · rw [hct]
      show t.curSize - k = _
      have := hE.count
      rw [content_eq] at hsz
      omega
    · rw [hct, content_eq]
      exact hE.sub
    · rw [hct, content_eq]
      exact hE.only
    · intro hS
      obtain ⟨u1, u2, _⟩ := O.exact (hS h0)
      rw [hs, he] at u1
      refine ⟨fun _ => u2, ?_⟩
      rw [hct, content_eq]
      exact u1

theorem bulkEraseRebuild_inv (hc : SplitOK c) (hpart : PartItems part (id : Point K d → Point K d))
    {t t' : Tree α K d} {pts : List (Point K d)} (hI : Inv pos t)
    (h : bulkEraseRebuild pos c d0 part t pts = .ok t') :
    Inv pos t' ∧ Clean t' ∧ t'.maxSize = t.maxSize ∧
    (∃ R : List α, (content t).Perm (content t' ++ R) ∧ (R.map pos).Subperm pts) ∧
    (SearchableT pos t → (content t').Perm (eraseAll pos pts (content t))) ∧
    ∀ P : List α → Prop, (∀ L L' : List α, L'.Subperm L → P L → P L') →
      (∀ dim L, P L → c.leafSize < L.length →
        (∀ x ∈ (c.split dim L).1.take (c.split dim L).2.2, pos x dim < (c.split dim L).2.1) ∧
        (∀ x ∈ (c.split dim L).1.drop (c.split dim L).2.2, (c.split dim L).2.1 ≤ pos x dim)) →
      P (content t) → SearchableT pos t' := by
  obtain ⟨t1, e1, I1, m1, s1, r1, x1, _⟩ := bulkErase_spec hpart hI pts
  unfold bulkEraseRebuild at h
  rw [e1] at h
  simp only [Except.bind] at h
  split at h
  · cases h
  · have hg : (moveElements t1).1 = content t1 := rfl
    have hlen : (content t1).length ≤ t1.maxSize := by
      rw [content_eq]
      unfold live
      rw [List.length_map]
      refine (List.length_filter_le _ _).trans ?_
      unfold slots
      rw [List.length_take]
      have := I1.bs
      omega
    rw [hg] at h
    obtain ⟨a1, a2, a3, a4, a5, a6⟩ := buildPoints_inv hc (t := (moveElements t1).2) I1.lenI
      (by simpa [moveElements, clear] using I1.lenP)
      (by
        show (List.replicate t1.present.length true).take _ = _
        rw [take_replicate_true]
        rw [I1.lenP]
        exact hlen) hlen h
    refine ⟨a1, ?_, a4.trans m1, ?_, ?_, ?_⟩
    · intro _
      rw [a5, a4]
      show List.replicate t1.present.length true = List.replicate t1.maxSize true
      rw [I1.lenP]
    · obtain ⟨R, q1, q2⟩ := r1
      exact ⟨R, q1.trans (a2.symm.append_right R), q2⟩
    · intro hS
      rw [← (x1 hS).2]
      exact a2
    · intro P hP hst hp
      exact a6 P hP hst (hP _ _ s1.subperm hp)

theorem bulkEraseRebuild_ok (hc : SplitOK c) (hpart : PartItems part (id : Point K d → Point K d))
    (P : List α → Prop) (hP : ∀ L L' : List α, L'.Subperm L → P L → P L')
    (hm : ∀ dim L, P L → c.leafSize < L.length →
      0 < (c.split dim L).2.2 ∧ (c.split dim L).2.2 < L.length) {t : Tree α K d}
    (hI : Inv pos t) (pts : List (Point K d)) (hp : P (content t)) :
    ∃ t', bulkEraseRebuild pos c d0 part t pts = .ok t' := by
  obtain ⟨t1, e1, I1, m1, s1, r1, x1, _⟩ := bulkErase_spec hpart hI pts
  unfold bulkEraseRebuild
  rw [e1]
  have hg : (moveElements t1).1 = content t1 := rfl
  simp only [Except.bind]
  rw [if_neg (by rw [hg, I1.size]; simp), hg]
  refine buildPoints_ok hc P hP hm ?_ (hP _ _ s1.subperm hp)
  show _ ≤ t1.items.length
  rw [content_eq]
  unfold live
  rw [List.length_map]
  refine (List.length_filter_le _ _).trans ?_
  unfold slots
  rw [List.length_take]
  have := I1.bs
  have := I1.lenI
  omega

/-- The multiset of positions after a batch of removals. -/
theorem eraseAll_positions (pts : List (Point K d)) (L : List α) :
    (((eraseAll pos pts L).map pos : List (Point K d)) : Multiset (Point K d)) =
      ((L.map pos : List (Point K d)) : Multiset (Point K d)) - (pts : Multiset (Point K d)) := by
  induction pts generalizing L with
  | nil => simp [eraseAll]
  | cons p pts ih =>
    have he : eraseAll pos (p :: pts) L = eraseAll pos pts (L.eraseP fun x => decide (pos x = p)) := rfl
    rw [he, ih, ← Multiset.cons_coe, Multiset.sub_cons, Multiset.coe_erase]
    congr 2
    clear he
    induction L with
    | nil => rfl
    | cons x L ihL =>
      by_cases hx : pos x = p
      · simp [hx]
      · rw [List.eraseP_cons_of_neg (by simpa using hx), List.map_cons, ihL, List.map_cons,
          List.erase_cons_tail (by simpa using hx)]

theorem emptyTree_inv (blank : α) (log2size : ℕ) :
    Inv pos (emptyTree blank log2size : Tree α K d) ∧ Clean (emptyTree blank log2size : Tree α K d) := by
  refine ⟨⟨by simp [emptyTree], by simp [emptyTree], by simp [emptyTree], fun h => absurd rfl h, ?_⟩,
    fun _ => rfl⟩
  simp [emptyTree, content]

end

end Verif.BatchKd
