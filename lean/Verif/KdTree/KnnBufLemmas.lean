import Verif.KdTree.KnnBufModel
import Mathlib.Data.List.Perm.Subperm
import Mathlib.Data.List.ReduceOption
import Mathlib.Tactic.Linarith

set_option linter.unusedSectionVars false
set_option linter.unusedVariables false

namespace Verif.KnnBuf

variable {α K : Type} [LinearOrder K]

omit [LinearOrder K] in
@[simp] theorem cost_none : Slot.cost (none : Slot α K) = ⊤ := rfl
omit [LinearOrder K] in
@[simp] theorem cost_some (e : K × α) : Slot.cost (some e) = (e.1 : WithTop K) := rfl

/-- Invariant of the buffer after the elements `ins` were inserted. -/
structure Inv (k : ℕ) (ins : List (K × α)) (b : Buf α K) (lost : List (K × α)) : Prop where
  hk : b.k = k
  kpos : 0 < k
  len : b.buf.length = 2 * k
  ptr_lt : b.ptr < 2 * k
  perm : (b.buf.reduceOption ++ lost).Perm ins
  lost_le : ∀ x ∈ lost, k ≤ b.buf.countP fun s => Slot.cost s ≤ (x.1 : WithTop K)
  full : ∀ s ∈ b.buf.take b.ptr, s ≠ none
  small : b.ptr < k → (∀ s ∈ b.buf.drop b.ptr, s = none) ∧ lost = []
  large : k ≤ b.ptr → ∀ x ∈ b.buf.take k, ∀ y ∈ b.buf.drop b.ptr, Slot.cost x ≤ Slot.cost y

theorem inv_new (k : ℕ) (hk : 0 < k) : Inv k [] (Buf.new k : Buf α K) [] := by
  refine ⟨rfl, hk, by simp [Buf.new], by simp [Buf.new, hk], ?_, by simp, by simp [Buf.new],
    ?_, ?_⟩
  · simp [Buf.new]
  · intro _; simp [Buf.new]
  · intro h; simp [Buf.new] at h; omega

theorem reduceOption_set_none {l : List (Slot α K)} {i : ℕ} (h : i < l.length) (e : K × α)
    (hn : l[i] = none) : (l.set i (some e)).reduceOption.Perm (e :: l.reduceOption) := by
  have h1 : l.set i (some e) = l.take i ++ some e :: l.drop (i + 1) := List.set_eq_take_append_cons_drop.trans (by simp [h])
  have h2 : l = l.take i ++ none :: l.drop (i + 1) := by
    conv_lhs => rw [← List.take_append_drop i l, List.drop_eq_getElem_cons h, hn]
  rw [h1]
  conv_rhs => rw [h2]
  simp only [List.reduceOption_append, List.reduceOption_cons_of_some,
    List.reduceOption_cons_of_none]
  exact List.perm_middle

theorem reduceOption_set_some {l : List (Slot α K)} {i : ℕ} (h : i < l.length) (e x : K × α)
    (hn : l[i] = some x) :
    (x :: (l.set i (some e)).reduceOption).Perm (e :: l.reduceOption) := by
  have h1 : l.set i (some e) = l.take i ++ some e :: l.drop (i + 1) := List.set_eq_take_append_cons_drop.trans (by simp [h])
  have h2 : l = l.take i ++ some x :: l.drop (i + 1) := by
    conv_lhs => rw [← List.take_append_drop i l, List.drop_eq_getElem_cons h, hn]
  rw [h1]
  conv_rhs => rw [h2]
  simp only [List.reduceOption_append, List.reduceOption_cons_of_some]
  refine (List.Perm.cons x List.perm_middle).trans ?_
  refine (List.Perm.swap _ _ _).trans ?_
  exact List.Perm.cons e List.perm_middle.symm

theorem countP_take_le {p : Slot α K → Bool} (l : List (Slot α K)) (k : ℕ) (hk : k ≤ l.length)
    (h : ∀ x ∈ l.take k, p x = true) : k ≤ l.countP p := by
  calc k = (l.take k).length := by simp [hk]
    _ = (l.take k).countP p := by rw [eq_comm, List.countP_eq_length]; exact h
    _ ≤ l.countP p := (List.take_sublist k l).countP_le

theorem reduceOption_length_eq_countP (l : List (Slot α K)) :
    l.reduceOption.length = l.countP (·.isSome) := by
  induction l with
  | nil => rfl
  | cons a l ih => cases a <;> simp [ih]

/-- The effect of `keepK` on the invariant. -/
theorem keepK_inv {nth : ℕ → List (Slot α K) → List (Slot α K)} (hn : NthSpec nth) {k : ℕ}
    {ins lost : List (K × α)} {b : Buf α K}
    (hk : b.k = k) (kpos : 0 < k) (len : b.buf.length = 2 * k)
    (perm : (b.buf.reduceOption ++ lost).Perm ins)
    (lost_le : ∀ x ∈ lost, k ≤ b.buf.countP fun s => Slot.cost s ≤ (x.1 : WithTop K))
    (full : ∀ s ∈ b.buf.take b.ptr, s ≠ none) (hp : k ≤ b.ptr) :
    ∃ b' r, b.keepK nth = .ok (b', some r) ∧ Inv k ins b' lost ∧ b'.ptr = k ∧
      b'.buf[k - 1]? = some (some r) ∧
      (∀ x ∈ b'.buf.take k, Slot.cost x ≤ (r.1 : WithTop K)) ∧
      (∀ y ∈ b'.buf.drop k, (r.1 : WithTop K) ≤ Slot.cost y) := by
  obtain ⟨hperm, hr⟩ := hn (k - 1) b.buf (by omega)
  set l := nth (k - 1) b.buf with hl
  have hlen : l.length = 2 * k := by rw [hperm.length_eq, len]
  have hlt : k - 1 < l.length := by omega
  have hget : l[k - 1]? = some l[k - 1] := List.getElem?_eq_getElem hlt
  obtain ⟨h1, h2⟩ := hr _ hget
  have hsome : k ≤ l.countP (·.isSome) := by
    rw [hperm.countP_eq]
    apply countP_take_le _ _ (by omega)
    intro x hx
    have : x ∈ b.buf.take b.ptr := by
      have := List.take_subset_take_left b.buf hp
      exact this hx
    exact Option.isSome_iff_ne_none.mpr (full x this)
  have hdecomp : l = l.take (k - 1) ++ l.drop (k - 1) := (List.take_append_drop _ _).symm
  have hrne : l[k - 1] ≠ none := by
    intro hnone
    rw [hnone] at h2
    have h3 : (l.drop (k - 1)).countP (·.isSome) = 0 := by
      rw [List.countP_eq_zero]
      intro y hy hs
      have := h2 y hy
      rw [Option.isSome_iff_exists] at hs
      obtain ⟨e, rfl⟩ := hs
      simp at this
    have h4 : l.countP (·.isSome) ≤ k - 1 := by
      rw [hdecomp, List.countP_append, h3]
      calc _ ≤ (l.take (k - 1)).length := List.countP_le_length
        _ ≤ k - 1 := by simp
    omega
  obtain ⟨r, hreq⟩ := Option.ne_none_iff_exists'.mp hrne
  rw [hreq] at h1 h2 hget
  have htake : l.take k = l.take (k - 1) ++ [some r] := by
    have : k = (k - 1) + 1 := by omega
    conv_lhs => rw [this]
    rw [List.take_add_one, hget]
    rfl
  have hdrop : l.drop (k - 1) = some r :: l.drop k := by
    rw [List.drop_eq_getElem_cons hlt, hreq]
    congr 2
    omega
  have ht : ∀ x ∈ l.take k, Slot.cost x ≤ (r.1 : WithTop K) := by
    intro x hx
    rw [htake, List.mem_append] at hx
    rcases hx with hx | hx
    · exact h1 x hx
    · simp at hx; subst hx; simp
  have hd : ∀ y ∈ l.drop k, (r.1 : WithTop K) ≤ Slot.cost y := by
    intro y hy
    exact h2 y (by rw [hdrop]; exact List.mem_cons_of_mem _ hy)
  refine ⟨⟨k, k, l⟩, r, ?_, ?_, rfl, hget, ht, hd⟩
  · unfold Buf.keepK
    rw [hk, if_neg (by omega), if_neg (by omega), ← hl, hget]
  · refine ⟨rfl, kpos, hlen, by show k < 2 * k; omega, ?_, ?_, ?_, ?_, ?_⟩
    · refine List.Perm.trans ?_ perm
      apply List.Perm.append_right
      exact hperm.filterMap _
    · intro x hx
      show k ≤ l.countP _
      rw [hperm.countP_eq]
      exact lost_le x hx
    · intro s hs hnone
      have := ht s hs
      rw [hnone] at this
      simp at this
    · intro h; exact absurd h (lt_irrefl _)
    · intro _ x hx y hy
      exact (ht x hx).trans (hd y hy)

theorem insert_inv {nth : ℕ → List (Slot α K) → List (Slot α K)} (hn : NthSpec nth) {k : ℕ}
    {ins lost : List (K × α)} {b : Buf α K} (h : Inv k ins b lost) (e : K × α) :
    ∃ b' lost', b.insert nth e = .ok b' ∧ Inv k (e :: ins) b' lost' := by
  obtain ⟨hk, kpos, len, ptr_lt, perm, lost_le, full, small, large⟩ := h
  have hlt : b.ptr < b.buf.length := by omega
  have hset : b.buf.set b.ptr (some e) = b.buf.take b.ptr ++ some e :: b.buf.drop (b.ptr + 1) :=
    List.set_eq_take_append_cons_drop.trans (by simp [hlt])
  have hdrop : b.buf.drop b.ptr = b.buf[b.ptr] :: b.buf.drop (b.ptr + 1) :=
    List.drop_eq_getElem_cons hlt
  have hbuf : b.buf = b.buf.take b.ptr ++ b.buf[b.ptr] :: b.buf.drop (b.ptr + 1) := by
    conv_lhs => rw [← List.take_append_drop b.ptr b.buf, hdrop]
  have hlen_t : (b.buf.take b.ptr).length = b.ptr := by simp; omega
  -- facts about the buffer after the write
  set l := b.buf.set b.ptr (some e) with hl
  have hlenl : l.length = 2 * k := by simp [hl, len]
  have htakel : l.take (b.ptr + 1) = b.buf.take b.ptr ++ [some e] := by
    rw [hset, List.take_append, hlen_t, List.take_of_length_le (by omega)]
    simp
  have hdropl : l.drop (b.ptr + 1) = b.buf.drop (b.ptr + 1) := by
    rw [hset, List.drop_append, hlen_t, List.drop_of_length_le (by omega)]
    simp
  have full' : ∀ s ∈ l.take (b.ptr + 1), s ≠ none := by
    intro s hs
    rw [htakel, List.mem_append] at hs
    rcases hs with hs | hs
    · exact full s hs
    · simp at hs; simp [hs]
  have htakek : k ≤ b.ptr → l.take k = b.buf.take k := by
    intro h
    rw [hset, List.take_append, hlen_t, List.take_take]
    simp [h]
  have hsub : ∀ y ∈ b.buf.drop (b.ptr + 1), y ∈ b.buf.drop b.ptr := by
    intro y hy
    rw [hdrop]; exact List.mem_cons_of_mem _ hy
  have large' : k ≤ b.ptr + 1 → ∀ x ∈ l.take k, ∀ y ∈ l.drop (b.ptr + 1),
      Slot.cost x ≤ Slot.cost y := by
    intro h x hx y hy
    rw [hdropl] at hy
    by_cases hc : k ≤ b.ptr
    · rw [htakek hc] at hx
      exact large hc x hx y (hsub y hy)
    · rw [(small (by omega)).1 y (hsub y hy)]
      simp
  obtain ⟨lost', perm', lost_le', hsm⟩ : ∃ lost', (l.reduceOption ++ lost').Perm (e :: ins) ∧
      (∀ x ∈ lost', k ≤ l.countP fun s => Slot.cost s ≤ (x.1 : WithTop K)) ∧
      (b.ptr < k → lost' = []) := by
    cases ho : b.buf[b.ptr] with
    | none =>
      refine ⟨lost, ?_, ?_, fun h => (small h).2⟩
      · refine ((reduceOption_set_none hlt e ho).append_right lost).trans ?_
        exact perm.cons e
      · intro x hx
        refine (lost_le x hx).trans ?_
        rw [hset]
        conv_lhs => rw [hbuf, ho]
        simp [List.countP_append, List.countP_cons]
    | some o =>
      have hge : k ≤ b.ptr := by
        by_contra hlt'
        have := (small (by omega)).1 b.buf[b.ptr] (by rw [hdrop]; exact List.mem_cons_self)
        rw [ho] at this
        cases this
      have hfirst : ∀ y : K, o.1 ≤ y → k ≤ l.countP fun s => Slot.cost s ≤ (y : WithTop K) := by
        intro y hy
        apply countP_take_le _ _ (by omega)
        intro x hx
        rw [htakek hge] at hx
        have := large hge x hx b.buf[b.ptr] (by rw [hdrop]; exact List.mem_cons_self)
        rw [ho] at this
        simpa using this.trans (by simpa using hy)
      refine ⟨o :: lost, ?_, ?_, fun h => absurd h (by omega)⟩
      · refine List.perm_middle.trans ?_
        refine List.Perm.trans ((reduceOption_set_some hlt e o ho).append_right lost) ?_
        exact perm.cons e
      · intro x hx
        rw [List.mem_cons] at hx
        rcases hx with rfl | hx
        · exact hfirst _ (le_refl _)
        · by_cases hox : o.1 ≤ x.1
          · exact hfirst _ hox
          · refine (lost_le x hx).trans ?_
            rw [hset]
            conv_lhs => rw [hbuf, ho]
            simp [List.countP_append, List.countP_cons, hox]
  unfold Buf.insert
  rw [if_pos hlt]
  simp only [← hl]
  by_cases hfull : b.ptr + 1 ≥ l.length
  · rw [if_pos hfull]
    obtain ⟨b', r, h1, h2, -⟩ := keepK_inv (b := ⟨b.k, b.ptr + 1, l⟩) hn hk kpos hlenl perm'
      lost_le' full' (by show k ≤ b.ptr + 1; omega)
    rw [h1]
    exact ⟨b', lost', rfl, h2⟩
  · rw [if_neg hfull]
    refine ⟨_, lost', rfl, hk, kpos, hlenl, by show b.ptr + 1 < 2 * k; omega, perm', lost_le',
      full', ?_, large'⟩
    intro h
    have h' : b.ptr < k := by simp at h; omega
    refine ⟨?_, hsm h'⟩
    intro s hs
    exact (small h').1 s (hsub s (by rw [← hdropl]; exact hs))

/-- The number of inserted elements and the write index are on the same side of `k`. -/
theorem Inv.ptr_iff {k : ℕ} {ins lost : List (K × α)} {b : Buf α K} (h : Inv k ins b lost) :
    k ≤ b.ptr ↔ k ≤ ins.length := by
  have hlen := h.perm.length_eq
  rw [List.length_append, reduceOption_length_eq_countP] at hlen
  have hge : b.ptr ≤ b.buf.countP (·.isSome) :=
    countP_take_le _ _ (by rw [h.len]; exact h.ptr_lt.le)
      (fun x hx => Option.isSome_iff_ne_none.mpr (h.full x hx))
  constructor
  · intro hp; omega
  · intro hp
    by_contra hlt
    obtain ⟨h1, h2⟩ := h.small (by omega)
    have h3 : b.buf.countP (·.isSome) ≤ b.ptr := by
      conv_lhs => rw [← List.take_append_drop b.ptr b.buf]
      rw [List.countP_append]
      have : (b.buf.drop b.ptr).countP (·.isSome) = 0 := by
        rw [List.countP_eq_zero]
        intro y hy
        simp [h1 y hy]
      rw [this]
      calc _ ≤ (b.buf.take b.ptr).length := List.countP_le_length
        _ ≤ b.ptr := by simp
    rw [h2] at hlen
    simp at hlen
    omega

theorem forall_some {l : List (Slot α K)} (h : ∀ s ∈ l, s ≠ none) :
    l = l.reduceOption.map some := by
  induction l with
  | nil => rfl
  | cons a l ih =>
    cases a with
    | none => exact absurd rfl (h none (by simp))
    | some a =>
      simp only [List.reduceOption_cons_of_some, List.map_cons, List.cons.injEq, true_and]
      exact ih fun s hs => h s (by simp [hs])

end Verif.KnnBuf
