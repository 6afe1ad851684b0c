import Verif.Par.ParBufModel
import Verif.Par.SplitLemmas
import Mathlib.Tactic.Linarith

set_option linter.unusedSectionVars false
set_option linter.unusedVariables false

namespace Verif.Par

variable {β : Type}

/-- Invariant of a buffer that holds `vals` in insertion order. -/
structure BufInv (b : ParBuf β) (vals : List β) : Prop where
  ex : ∃ (full : List (List β)) (cur : List β),
    b.arrs = full.map (List.map some) ++
      [cur.map some ++ List.replicate (b.currentSize - b.count) none] ∧
    cur.length = b.count ∧ vals = full.flatten ++ cur ∧
    ∀ i (h : i < full.length), b.sizes[i]? = some (some full[i].length)
  count_le : b.count ≤ b.currentSize
  size_pos : 0 < b.currentSize
  sizes_len : b.sizes.length = b.parentTotal + 1
  used_le : b.arrs.length ≤ b.parentTotal
  cap_le : b.parentTotal ≤ b.parentCap

theorem bufInv_new (n : ℕ) (hn : 1 ≤ n) : BufInv (ParBuf.new n : ParBuf β) [] :=
  ⟨⟨[], [], by simp [ParBuf.new], by simp [ParBuf.new], by simp, by simp⟩,
    by simp [ParBuf.new], hn, by simp [ParBuf.new], by simp [ParBuf.new], by simp [ParBuf.new]⟩

theorem write_inv {b : ParBuf β} {vals : List β} (h : BufInv b vals) (hlt : b.count < b.currentSize)
    (x : β) : ∃ b', b.write x = .ok b' ∧ BufInv b' (vals ++ [x]) := by
  obtain ⟨⟨full, cur, h1, h2, h3, h4⟩, h5, h6, h7, h8, h9⟩ := h
  have hlast : b.arrs.getLast? =
      some (cur.map some ++ List.replicate (b.currentSize - b.count) none) := by
    rw [h1]; simp
  have hd : b.arrs.dropLast = full.map (List.map some) := by rw [h1]; simp
  unfold ParBuf.write
  rw [hlast]
  simp only
  rw [if_pos (by simp [h2]; omega)]
  refine ⟨_, rfl, ⟨full, cur ++ [x], ?_, by simp [h2], by simp [h3], h4⟩, hlt, h6, h7, ?_, h9⟩
  · simp only [hd]
    congr 2
    rw [List.set_append_right b.count (some x) (by simp [h2])]
    simp only [List.length_map, h2, Nat.sub_self, List.map_append, List.map_cons, List.map_nil,
      List.append_assoc]
    congr 1
    have : b.currentSize - b.count = (b.currentSize - (b.count + 1)) + 1 := by omega
    rw [this, List.replicate_succ]
    rfl
  · simp only [hd]
    rw [h1] at h8
    simpa using h8

theorem grow_inv {szT szPtr : ℕ} (hsz : szPtr ≤ szT) (hp : 0 < szPtr) {b : ParBuf β} {vals : List β}
    (h : BufInv b vals) :
    ∃ b', b.grow szT szPtr = .ok b' ∧ BufInv b' vals ∧ b'.count < b'.currentSize := by
  unfold ParBuf.grow
  by_cases hc : b.count + 1 > b.currentSize
  · rw [if_pos hc]
    obtain ⟨⟨full, cur, h1, h2, h3, h4⟩, h5, h6, h7, h8, h9⟩ := h
    have hcount : b.count = b.currentSize := by omega
    have hlen : b.arrs.length = full.length + 1 := by rw [h1]; simp
    have harrs : b.arrs = (full ++ [cur]).map (List.map some) := by
      rw [h1, hcount]; simp
    -- finalize
    set sizes1 := b.sizes.set (b.arrs.length - 1) (some b.count) with hs1
    have hfin : b.finalize = .ok { b with sizes := sizes1 } := by
      unfold ParBuf.finalize
      rw [if_pos (by omega)]
    have hsz1 : ∀ i (h : i < (full ++ [cur]).length), sizes1[i]? = some (some (full ++ [cur])[i].length) := by
      intro i hi
      rw [hs1, hlen]
      simp only [Nat.add_sub_cancel]
      by_cases he : i = full.length
      · subst he
        rw [List.getElem?_set_self (by omega)]
        simp [h2]
      · rw [List.getElem?_set_ne (fun h => he h.symm)]
        have hi' : i < full.length := by simp at hi; omega
        rw [h4 i hi', List.getElem_append_left hi']
    have hlen1 : sizes1.length = b.parentTotal + 1 := by rw [hs1]; simpa using h7
    -- ensureParent
    obtain ⟨b2, hb2, ha2, hc2, hcs2, hsz2, hl2, hu2, hcap2⟩ : ∃ b2 : ParBuf β,
        ParBuf.ensureParent szT szPtr { b with sizes := sizes1 } = .ok b2 ∧ b2.arrs = b.arrs ∧
        b2.count = b.count ∧ b2.currentSize = b.currentSize ∧
        (∀ i (h : i < (full ++ [cur]).length), b2.sizes[i]? = some (some (full ++ [cur])[i].length)) ∧
        b2.sizes.length = b2.parentTotal + 1 ∧ b2.arrs.length < b2.parentTotal ∧
        b2.parentTotal ≤ b2.parentCap := by
      unfold ParBuf.ensureParent
      simp only
      by_cases hlt : b.arrs.length < b.parentTotal
      · rw [if_pos hlt]
        exact ⟨_, rfl, rfl, rfl, rfl, hsz1, hlen1, hlt, h9⟩
      · rw [if_neg hlt]
        have hcap : b.parentTotal * 2 ≤ szT * b.parentTotal * 2 / szPtr := by
          rw [Nat.le_div_iff_mul_le hp]
          calc b.parentTotal * 2 * szPtr ≤ b.parentTotal * 2 * szT := Nat.mul_le_mul_left _ hsz
            _ = szT * b.parentTotal * 2 := by rw [Nat.mul_comm, Nat.mul_assoc]
        unfold ParBuf.growParent
        simp only
        rw [if_pos ⟨by omega, by rw [hlen1]; omega, by omega⟩]
        refine ⟨_, rfl, rfl, rfl, rfl, ?_, ?_, ?_, hcap⟩
        · intro i hi
          simp only
          have hi' : i < b.arrs.length := by rw [hlen]; simpa using hi
          rw [List.getElem?_append_left (by simp [hlen1]; omega), List.getElem?_take, if_pos hi']
          exact hsz1 i hi
        · simp only [List.length_append, List.length_take, hlen1, List.length_replicate]
          omega
        · show b.arrs.length < b.parentTotal * 2
          omega
    -- addArray
    have hadd : b2.addArray = .ok { b2 with
        arrs := b2.arrs ++ [List.replicate (b2.currentSize * 2) none]
        count := 0
        currentSize := b2.currentSize * 2 } := by
      unfold ParBuf.addArray
      rw [if_pos (by omega)]
    rw [hfin]
    simp only [Except.bind]
    rw [hb2]
    simp only
    rw [hadd]
    refine ⟨_, rfl, ⟨⟨full ++ [cur], [], ?_, rfl, by simp [h3], hsz2⟩, Nat.zero_le _, ?_, hl2, ?_, hcap2⟩, ?_⟩
    · simp only [ha2, harrs]
      simp
    · show 0 < b2.currentSize * 2
      omega
    · simp only [List.length_append, List.length_singleton]
      omega
    · show 0 < b2.currentSize * 2
      omega
  · rw [if_neg hc]
    exact ⟨b, rfl, h, by omega⟩

theorem push_inv {szT szPtr : ℕ} (hsz : szPtr ≤ szT) (hp : 0 < szPtr) {b : ParBuf β} {vals : List β}
    (h : BufInv b vals) (x : β) :
    ∃ b', b.push szT szPtr x = .ok b' ∧ BufInv b' (vals ++ [x]) := by
  obtain ⟨b1, h1, h2, h3⟩ := grow_inv hsz hp h
  obtain ⟨b2, h4, h5⟩ := write_inv h2 h3 x
  refine ⟨b2, ?_, h5⟩
  unfold ParBuf.push
  rw [h1]
  exact h4

theorem arrayWrites_ok (off : ℕ) (l : List β) (rest : List (Option β)) :
    arrayWrites off l.length (l.map some ++ rest) = .ok (l.mapIdx fun i x => (off + i, x)) := by
  induction l generalizing off with
  | nil => rfl
  | cons x l ih =>
    simp only [List.length_cons, List.map_cons, List.cons_append, arrayWrites]
    rw [ih]
    simp only [Except.map, List.mapIdx_cons, Nat.add_zero]
    congr 2
    apply List.ext_getElem
    · simp
    · intro i h1 h2
      simp only [List.getElem_mapIdx]
      congr 1
      omega

theorem mapIdx_append_off (off : ℕ) (l r : List β) :
    (l ++ r).mapIdx (fun i x => (off + i, x)) =
      l.mapIdx (fun i x => (off + i, x)) ++ r.mapIdx (fun i x => (off + l.length + i, x)) := by
  rw [List.mapIdx_append]
  congr 1
  apply List.ext_getElem
  · simp
  · intro i h1 h2
    simp only [List.getElem_mapIdx]
    congr 1
    omega

theorem prefixSums_cons (acc : ℕ) (l : List ℕ) : ∃ r, prefixSums acc l = acc :: r := by
  cases l <;> exact ⟨_, rfl⟩

theorem arraysWrites_ok (off acc : ℕ) (full : List (List β)) (arrs : List (List (Option β)))
    (h : List.Forall₂ (fun l a => ∃ rest, a = l.map some ++ rest) full arrs) :
    arraysWrites off (prefixSums acc (full.map List.length)) arrs =
      .ok (full.flatten.mapIdx fun i x => (off + acc + i, x)) := by
  induction h generalizing acc with
  | nil => rfl
  | @cons l a full arrs h1 h2 ih =>
    obtain ⟨rest, rfl⟩ := h1
    have ih' := ih (acc + l.length)
    obtain ⟨r, hr⟩ := prefixSums_cons (acc + l.length) (full.map List.length)
    simp only [List.map_cons, prefixSums]
    rw [hr] at ih' ⊢
    simp only [arraysWrites, Nat.add_sub_cancel_left, arrayWrites_ok, Except.bind, ih', Except.map,
      List.flatten_cons, mapIdx_append_off (off + acc), ← Nat.add_assoc]

theorem mapM_some {γ : Type} (l : List γ) : (l.map some).mapM id = some l := by
  induction l with
  | nil => rfl
  | cons a l ih => simp [List.mapM_cons, ih]

/-- Finalizing and copying one buffer. -/
theorem finalize_copy {b : ParBuf β} {vals : List β} (h : BufInv b vals) :
    ∃ b', b.finalize = .ok b' ∧ b'.size = .ok vals.length ∧
      ∀ off, b'.copy off = .ok (vals.mapIdx fun i x => (off + i, x)) := by
  obtain ⟨⟨full, cur, h1, h2, h3, h4⟩, h5, h6, h7, h8, h9⟩ := h
  have hlen : b.arrs.length = full.length + 1 := by rw [h1]; simp
  set sizes1 := b.sizes.set (b.arrs.length - 1) (some b.count) with hs1
  have hsz1 : sizes1.take b.arrs.length = ((full ++ [cur]).map List.length).map some := by
    apply List.ext_getElem?
    intro i
    rw [List.getElem?_take]
    split
    · rename_i hi
      rw [hs1, hlen]
      simp only [Nat.add_sub_cancel]
      by_cases he : i = full.length
      · subst he
        rw [List.getElem?_set_self (by omega)]
        simp [h2]
      · rw [List.getElem?_set_ne (fun h => he h.symm)]
        have hi' : i < full.length := by omega
        rw [h4 i hi']
        simp [List.getElem?_append_left, hi']
    · symm
      rw [List.getElem?_eq_none]
      simp; omega
  refine ⟨{ b with sizes := sizes1 }, ?_, ?_, ?_⟩
  · unfold ParBuf.finalize
    rw [if_pos (by omega)]
  · unfold ParBuf.size
    simp only
    have : sizes1.take (b.arrs.length - 1) = (full.map List.length).map some := by
      have h10 := congrArg (List.take (b.arrs.length - 1)) hsz1
      rw [List.take_take] at h10
      rw [Nat.min_eq_left (by omega)] at h10
      rw [h10, hlen]
      simp
    rw [this, mapM_some]
    simp only [List.length_map]
    rw [if_pos (by omega), h3, List.length_append, List.length_flatten, h2]
  · intro off
    unfold ParBuf.copy
    simp only
    rw [if_pos (by rw [hs1]; simp; omega), hsz1, mapM_some]
    simp only
    have hv : vals = (full ++ [cur]).flatten := by simp [h3]
    rw [hv]
    refine arraysWrites_ok off 0 _ _ ?_
    rw [h1]
    apply List.rel_append
    · rw [List.forall₂_map_right_iff]
      exact List.forall₂_same.mpr fun l _ => ⟨[], by simp⟩
    · exact List.Forall₂.cons ⟨_, rfl⟩ List.Forall₂.nil

theorem collect_aux (bs : List (ParBuf β)) (vals : List (List β))
    (h : List.Forall₂ BufInv bs vals) :
    ∃ fs, finalizeAll bs = .ok fs ∧ fs.map (·.2) = vals.map List.length ∧
      ∀ off, copyAll off fs = .ok (vals.flatten.mapIdx fun i x => (off + i, x)) := by
  induction h with
  | nil => exact ⟨[], rfl, rfl, fun off => rfl⟩
  | @cons b v bs vals h1 h2 ih =>
    obtain ⟨b', h3, h4, h5⟩ := finalize_copy h1
    obtain ⟨fs, h6, h7, h8⟩ := ih
    refine ⟨(b', v.length) :: fs, ?_, by simp [h7], ?_⟩
    · simp only [finalizeAll, h3, h4, h6, Except.bind, Except.map]
    · intro off
      simp only [copyAll, h5, h8, Except.bind, Except.map, List.flatten_cons, mapIdx_append_off]

theorem mapIdx_writes (l : List β) : Writes (l.mapIdx fun i x => (0 + i, x)) l := by
  constructor
  · have : (l.mapIdx fun i x => (0 + i, x)).map Prod.fst = List.range l.length := by
      apply List.ext_getElem <;> simp
    rw [this]
    exact List.nodup_range
  · intro p v
    rw [List.mem_mapIdx]
    constructor
    · rintro ⟨i, hi, h⟩
      simp only [Nat.zero_add, Prod.mk.injEq] at h
      obtain ⟨rfl, rfl⟩ := h
      exact List.getElem?_eq_getElem hi
    · intro h
      rw [List.getElem?_eq_some_iff] at h
      obtain ⟨hi, rfl⟩ := h
      exact ⟨p, hi, by simp⟩

theorem pushAll_ok {szT szPtr : ℕ} (hsz : szPtr ≤ szT) (hp : 0 < szPtr) (h : List (ℕ × β))
    (bs : List (ParBuf β)) (vals : List (List β)) (hinv : List.Forall₂ BufInv bs vals)
    (hw : ∀ e ∈ h, e.1 < bs.length) :
    ∃ bs', pushAll szT szPtr h bs = .ok bs' ∧
      List.Forall₂ BufInv bs' (vals.mapIdx fun w v => v ++ (h.filter (·.1 = w)).map (·.2)) := by
  induction h generalizing bs vals with
  | nil =>
    refine ⟨bs, rfl, ?_⟩
    have : (vals.mapIdx fun w v => v ++ (([] : List (ℕ × β)).filter (·.1 = w)).map (·.2)) = vals := by
      apply List.ext_getElem <;> simp
    rw [this]
    exact hinv
  | cons e h ih =>
    obtain ⟨w, x⟩ := e
    have hwlt : w < bs.length := hw (w, x) (by simp)
    have hlen := hinv.length_eq
    have hb : bs[w]? = some bs[w] := List.getElem?_eq_getElem hwlt
    have hi := hinv.get hwlt (by omega)
    simp only [List.get_eq_getElem] at hi
    obtain ⟨b', h1, h2⟩ := push_inv hsz hp hi x
    have hinv' : List.Forall₂ BufInv (bs.set w b') (vals.set w (vals[w] ++ [x])) := by
      rw [List.forall₂_iff_get]
      refine ⟨by simp [hlen], ?_⟩
      intro i hi1 hi2
      simp only [List.get_eq_getElem, List.getElem_set]
      split
      · exact h2
      · have := hinv.get (by simpa using hi1) (by simpa using hi2)
        simpa using this
    obtain ⟨bs', h3, h4⟩ := ih (bs.set w b') _ hinv' (by
      intro e he
      simpa using hw e (by simp [he]))
    refine ⟨bs', ?_, ?_⟩
    · unfold pushAll
      rw [hb]
      simp only
      rw [h1]
      exact h3
    · have : ((vals.set w (vals[w] ++ [x])).mapIdx fun w v =>
          v ++ (h.filter (·.1 = w)).map (·.2)) =
          vals.mapIdx fun w' v => v ++ (((w, x) :: h).filter (·.1 = w')).map (·.2) := by
        apply List.ext_getElem
        · simp
        · intro i hi1 hi2
          simp only [List.getElem_mapIdx, List.getElem_set, List.filter_cons]
          split
          · rename_i he
            subst he
            simp
          · rename_i he
            simp [he]
      rw [← this]
      exact h4

end Verif.Par
