import Verif.KdTree.Model
import Verif.Par.SplitProps
import Mathlib.Data.List.FinRange

set_option linter.unusedSectionVars false
set_option linter.unusedVariables false

namespace Verif.KdTree

variable {α K : Type} {d : ℕ}

/-! ### Bounding boxes -/

section
variable [Field K] [LinearOrder K]

theorem foldl_extend_lo (pos : α → Point K d) (l : List α) (b : Box K d) (i : Fin d) :
    (l.foldl (fun b x => Box.extend b (pos x)) b).lo i ≤ b.lo i ∧
    (∀ x ∈ l, (l.foldl (fun b x => Box.extend b (pos x)) b).lo i ≤ pos x i) ∧
    ((l.foldl (fun b x => Box.extend b (pos x)) b).lo i = b.lo i ∨
      ∃ x ∈ l, pos x i = (l.foldl (fun b x => Box.extend b (pos x)) b).lo i) := by
  induction l generalizing b with
  | nil => simp
  | cons a l ih =>
    obtain ⟨h1, h2, h3⟩ := ih (Box.extend b (pos a))
    simp only [List.foldl_cons]
    have ha : (Box.extend b (pos a)).lo i = min (b.lo i) (pos a i) := rfl
    rw [ha] at h1 h3
    refine ⟨h1.trans (min_le_left _ _), ?_, ?_⟩
    · intro x hx
      rcases List.mem_cons.mp hx with rfl | hx
      · exact h1.trans (min_le_right _ _)
      · exact h2 x hx
    · rcases h3 with h3 | ⟨x, hx, h3⟩
      · rcases min_choice (b.lo i) (pos a i) with h | h
        · left; rw [h3, h]
        · right; exact ⟨a, by simp, by rw [h3, h]⟩
      · right; exact ⟨x, by simp [hx], h3⟩

theorem foldl_extend_hi (pos : α → Point K d) (l : List α) (b : Box K d) (i : Fin d) :
    b.hi i ≤ (l.foldl (fun b x => Box.extend b (pos x)) b).hi i ∧
    (∀ x ∈ l, pos x i ≤ (l.foldl (fun b x => Box.extend b (pos x)) b).hi i) ∧
    ((l.foldl (fun b x => Box.extend b (pos x)) b).hi i = b.hi i ∨
      ∃ x ∈ l, pos x i = (l.foldl (fun b x => Box.extend b (pos x)) b).hi i) := by
  induction l generalizing b with
  | nil => simp
  | cons a l ih =>
    obtain ⟨h1, h2, h3⟩ := ih (Box.extend b (pos a))
    simp only [List.foldl_cons]
    have ha : (Box.extend b (pos a)).hi i = max (b.hi i) (pos a i) := rfl
    rw [ha] at h1 h3
    refine ⟨(le_max_left _ _).trans h1, ?_, ?_⟩
    · intro x hx
      rcases List.mem_cons.mp hx with rfl | hx
      · exact (le_max_right _ _).trans h1
      · exact h2 x hx
    · rcases h3 with h3 | ⟨x, hx, h3⟩
      · rcases max_choice (b.hi i) (pos a i) with h | h
        · left; rw [h3, h]
        · right; exact ⟨a, by simp, by rw [h3, h]⟩
      · right; exact ⟨x, by simp [hx], h3⟩

theorem boxSerial_ok (pos : α → Point K d) (items : List α) (h : items ≠ []) :
    ∃ b, boxSerial pos items = .ok b ∧ b.Tight pos items := by
  cases items with
  | nil => exact absurd rfl h
  | cons a l =>
    refine ⟨_, rfl, ?_, ?_⟩
    · intro x hx i
      exact ⟨(foldl_extend_lo pos (a :: l) _ i).2.1 x hx, (foldl_extend_hi pos (a :: l) _ i).2.1 x hx⟩
    · intro i
      constructor
      · rcases (foldl_extend_lo pos (a :: l) ⟨pos a, pos a⟩ i).2.2 with h | h
        · exact ⟨a, by simp, h.symm⟩
        · exact h
      · rcases (foldl_extend_hi pos (a :: l) ⟨pos a, pos a⟩ i).2.2 with h | h
        · exact ⟨a, by simp, h.symm⟩
        · exact h

theorem foldl_merge_lo (l : List (Box K d)) (b : Box K d) (i : Fin d) :
    (l.foldl (fun b x => (⟨fun i => min (b.lo i) (x.lo i), fun i => max (b.hi i) (x.hi i)⟩ : Box K d))
      b).lo i ≤ b.lo i ∧
    (∀ x ∈ l, (l.foldl (fun b x => (⟨fun i => min (b.lo i) (x.lo i), fun i => max (b.hi i) (x.hi i)⟩ :
      Box K d)) b).lo i ≤ x.lo i) ∧
    ((l.foldl (fun b x => (⟨fun i => min (b.lo i) (x.lo i), fun i => max (b.hi i) (x.hi i)⟩ : Box K d))
      b).lo i = b.lo i ∨
      ∃ x ∈ l, x.lo i = (l.foldl (fun b x => (⟨fun i => min (b.lo i) (x.lo i),
        fun i => max (b.hi i) (x.hi i)⟩ : Box K d)) b).lo i) := by
  induction l generalizing b with
  | nil => simp
  | cons a l ih =>
    obtain ⟨h1, h2, h3⟩ := ih ⟨fun i => min (b.lo i) (a.lo i), fun i => max (b.hi i) (a.hi i)⟩
    simp only [List.foldl_cons]
    refine ⟨h1.trans (min_le_left _ _), ?_, ?_⟩
    · intro x hx
      rcases List.mem_cons.mp hx with rfl | hx
      · exact h1.trans (min_le_right _ _)
      · exact h2 x hx
    · rcases h3 with h3 | ⟨x, hx, h3⟩
      · rcases min_choice (b.lo i) (a.lo i) with h | h
        · left; rw [h3]; exact h
        · right; exact ⟨a, by simp, by rw [h3]; exact h.symm⟩
      · right; exact ⟨x, by simp [hx], h3⟩

theorem foldl_merge_hi (l : List (Box K d)) (b : Box K d) (i : Fin d) :
    b.hi i ≤ (l.foldl (fun b x => (⟨fun i => min (b.lo i) (x.lo i), fun i => max (b.hi i) (x.hi i)⟩ :
      Box K d)) b).hi i ∧
    (∀ x ∈ l, x.hi i ≤ (l.foldl (fun b x => (⟨fun i => min (b.lo i) (x.lo i),
      fun i => max (b.hi i) (x.hi i)⟩ : Box K d)) b).hi i) ∧
    ((l.foldl (fun b x => (⟨fun i => min (b.lo i) (x.lo i), fun i => max (b.hi i) (x.hi i)⟩ : Box K d))
      b).hi i = b.hi i ∨
      ∃ x ∈ l, x.hi i = (l.foldl (fun b x => (⟨fun i => min (b.lo i) (x.lo i),
        fun i => max (b.hi i) (x.hi i)⟩ : Box K d)) b).hi i) := by
  induction l generalizing b with
  | nil => simp
  | cons a l ih =>
    obtain ⟨h1, h2, h3⟩ := ih ⟨fun i => min (b.lo i) (a.lo i), fun i => max (b.hi i) (a.hi i)⟩
    simp only [List.foldl_cons]
    refine ⟨(le_max_left _ _).trans h1, ?_, ?_⟩
    · intro x hx
      rcases List.mem_cons.mp hx with rfl | hx
      · exact (le_max_right _ _).trans h1
      · exact h2 x hx
    · rcases h3 with h3 | ⟨x, hx, h3⟩
      · rcases max_choice (b.hi i) (a.hi i) with h | h
        · left; rw [h3]; exact h
        · right; exact ⟨a, by simp, by rw [h3]; exact h.symm⟩
      · right; exact ⟨x, by simp [hx], h3⟩

theorem boxParallel_ok (w : ℕ) (hw : 0 < w) (pos : α → Point K d) (items : List α)
    (h : items ≠ []) : ∃ b, boxParallel w pos items = .ok b ∧ b.Tight pos items := by
  cases items with
  | nil => exact absurd rfl h
  | cons a l =>
    refine ⟨_, rfl, ?_⟩
    set items := a :: l with hitems
    have hP : 0 < w * 8 := by omega
    set P := w * 8 with hPdef
    set bs := (items.length + P - 1) / P with hbs
    have hcov : items.length ≤ P * bs := by
      have h1 := Nat.div_add_mod (items.length + P - 1) P
      have h2 := Nat.mod_lt (items.length + P - 1) hP
      rw [← hbs] at h1
      omega
    set f : ℕ → Box K d := fun p =>
      ((items.drop (p * bs)).take (min ((p + 1) * bs) items.length - p * bs)).foldl
        (fun b x => Box.extend b (pos x)) ⟨pos a, pos a⟩ with hf
    set locals := (List.range P).map f with hlocals
    have hblk : ∀ x ∈ items, ∃ p < P, x ∈ (items.drop (p * bs)).take
        (min ((p + 1) * bs) items.length - p * bs) := by
      intro x hx
      obtain ⟨j, hj, rfl⟩ := List.getElem_of_mem hx
      have hbs0 : 0 < bs := by
        rcases Nat.eq_zero_or_pos bs with h0 | h0
        · rw [h0] at hcov; omega
        · exact h0
      refine ⟨j / bs, ?_, ?_⟩
      · rw [Nat.div_lt_iff_lt_mul hbs0]; omega
      · have h1 := Nat.div_add_mod j bs
        have h2 := Nat.mod_lt j hbs0
        have h3 : bs * (j / bs) = j / bs * bs := Nat.mul_comm _ _
        have h4 : (j / bs + 1) * bs = j / bs * bs + bs := Nat.succ_mul _ _
        rw [List.mem_take_iff_getElem]
        refine ⟨j % bs, ?_, ?_⟩
        · rw [List.length_drop]; omega
        · rw [List.getElem_drop]; congr 1; omega
    have hmem : ∀ p x, x ∈ (items.drop (p * bs)).take
        (min ((p + 1) * bs) items.length - p * bs) → x ∈ items := fun p x hx =>
      List.mem_of_mem_drop (List.mem_of_mem_take hx)
    constructor
    · intro x hx i
      obtain ⟨p, hp, hxp⟩ := hblk x hx
      have hfp : f p ∈ locals := List.mem_map_of_mem (List.mem_range.mpr hp)
      constructor
      · exact ((foldl_merge_lo locals _ i).2.1 _ hfp).trans ((foldl_extend_lo pos _ _ i).2.1 x hxp)
      · exact ((foldl_extend_hi pos _ _ i).2.1 x hxp).trans ((foldl_merge_hi locals _ i).2.1 _ hfp)
    · intro i
      constructor
      · rcases (foldl_merge_lo locals ⟨pos a, pos a⟩ i).2.2 with h | ⟨b, hb, h⟩
        · exact ⟨a, by simp [hitems], h.symm⟩
        · obtain ⟨p, _, rfl⟩ := List.mem_map.mp hb
          rcases (foldl_extend_lo pos ((items.drop (p * bs)).take
            (min ((p + 1) * bs) items.length - p * bs)) ⟨pos a, pos a⟩ i).2.2 with h' | ⟨x, hx, h'⟩
          · refine ⟨a, by simp [hitems], ?_⟩
            exact h'.symm.trans h
          · exact ⟨x, hmem p x hx, h'.trans h⟩
      · rcases (foldl_merge_hi locals ⟨pos a, pos a⟩ i).2.2 with h | ⟨b, hb, h⟩
        · exact ⟨a, by simp [hitems], h.symm⟩
        · obtain ⟨p, _, rfl⟩ := List.mem_map.mp hb
          rcases (foldl_extend_hi pos ((items.drop (p * bs)).take
            (min ((p + 1) * bs) items.length - p * bs)) ⟨pos a, pos a⟩ i).2.2 with h' | ⟨x, hx, h'⟩
          · refine ⟨a, by simp [hitems], ?_⟩
            exact h'.symm.trans h
          · exact ⟨x, hmem p x hx, h'.trans h⟩

end

/-! ### Splitting -/

theorem scanRight_ok (ge : α → Bool) (a : List α) (l r : ℕ) (hr : r < a.length) (hl : l ≤ r) :
    ∃ r', scanRight ge a l r = .ok r' ∧ l ≤ r' ∧ r' ≤ r ∧
      (∀ i, r' < i → i ≤ r → ∀ x, a[i]? = some x → ge x = true) ∧
      (l < r' → ∃ x, a[r']? = some x ∧ ge x = false) := by
  induction r with
  | zero =>
    refine ⟨0, ?_, hl, le_refl _, fun i h1 h2 => by omega, fun h => by omega⟩
    simp [scanRight, List.getElem?_eq_getElem hr]
  | succ r ih =>
    simp only [scanRight, List.getElem?_eq_getElem hr]
    by_cases hc : ge a[r + 1] = true ∧ l < r + 1
    · obtain ⟨r', h1, h2, h3, h4, h5⟩ := ih (by omega) (by omega)
      rw [if_pos hc]
      refine ⟨r', h1, h2, by omega, ?_, h5⟩
      intro i hi1 hi2 x hx
      rcases Nat.lt_or_ge i (r + 1) with h | h
      · exact h4 i hi1 (by omega) x hx
      · have : i = r + 1 := by omega
        subst this
        rw [List.getElem?_eq_getElem hr] at hx
        cases hx; exact hc.1
    · rw [if_neg hc]
      refine ⟨r + 1, rfl, hl, le_refl _, fun i h1 h2 => by omega, ?_⟩
      intro h
      refine ⟨a[r + 1], List.getElem?_eq_getElem hr, ?_⟩
      by_contra hg
      exact hc ⟨by simpa using hg, h⟩

theorem splitLoop_ok (ge : α → Bool) (fuel : ℕ) (a : List α) (l r : ℕ)
    (hf : r + 1 - l < fuel) (hl : l < a.length) (hr : r < a.length) (hlr : l ≤ r + 1)
    (hpre : ∀ i < l, ∀ x, a[i]? = some x → ge x = false)
    (hpost : ∀ i, r < i → ∀ x, a[i]? = some x → ge x = true) :
    ∃ a' l', splitLoop ge fuel a l r = .ok (a', l') ∧ a'.Perm a ∧ l' < a'.length ∧
      (∀ i < l', ∀ x, a'[i]? = some x → ge x = false) ∧
      (∀ i, l' < i → ∀ x, a'[i]? = some x → ge x = true) := by
  induction fuel generalizing a l r with
  | zero => omega
  | succ fuel ih =>
    unfold splitLoop
    by_cases hlt : l < r
    · rw [if_pos hlt]
      simp only [List.getElem?_eq_getElem hl]
      by_cases hg : ge a[l] = true
      · rw [if_pos hg]
        obtain ⟨r', h1, h2, h3, h4, h5⟩ := scanRight_ok ge a l r hr hlt.le
        rw [h1]
        simp only
        by_cases hlr' : l < r'
        · rw [if_pos hlr']
          have hr' : r' < a.length := by omega
          obtain ⟨y, hy1, hy2⟩ := h5 hlr'
          have hy : a[r'] = y := by
            rw [List.getElem?_eq_getElem hr'] at hy1; simpa using hy1
          simp only [List.getElem?_eq_getElem hr']
          have hperm : ((a.set l a[r']).set r' a[l]).Perm a := List.set_set_perm hl hr'
          obtain ⟨a', l', g1, g2, g3, g4, g5⟩ := ih ((a.set l a[r']).set r' a[l]) (l + 1) (r' - 1)
            (by omega) (by simp; omega) (by simp; omega) (by omega) (by
              intro i hi x hx
              rw [List.getElem?_set_ne (by omega)] at hx
              rcases Nat.lt_or_ge i l with h | h
              · rw [List.getElem?_set_ne (by omega)] at hx
                exact hpre i h x hx
              · have : i = l := by omega
                subst this
                rw [List.getElem?_set_self (by omega)] at hx
                cases hx
                rw [hy]; exact hy2) (by
              intro i hi x hx
              rcases Nat.lt_or_ge r' i with h | h
              · rw [List.getElem?_set_ne (by omega), List.getElem?_set_ne (by omega)] at hx
                rcases Nat.lt_or_ge r i with h' | h'
                · exact hpost i h' x hx
                · exact h4 i h h' x hx
              · have : i = r' := by omega
                subst this
                rw [List.getElem?_set_self (by simpa using hr')] at hx
                cases hx; exact hg)
          exact ⟨a', l', g1, g2.trans hperm, g3, g4, g5⟩
        · rw [if_neg hlr']
          have : r' = l := by omega
          subst this
          refine ⟨a, r', rfl, List.Perm.refl _, hl, hpre, ?_⟩
          intro i hi x hx
          rcases Nat.lt_or_ge r i with h' | h'
          · exact hpost i h' x hx
          · exact h4 i hi h' x hx
      · rw [if_neg hg]
        exact ih a (l + 1) r (by omega) (by omega) hr (by omega) (by
          intro i hi x hx
          rcases Nat.lt_or_ge i l with h | h
          · exact hpre i h x hx
          · have : i = l := by omega
            subst this
            rw [List.getElem?_eq_getElem hl] at hx
            cases hx; simpa using hg) hpost
    · rw [if_neg hlt]
      refine ⟨a, l, rfl, List.Perm.refl _, hl, hpre, ?_⟩
      intro i hi x hx
      exact hpost i (by omega) x hx

/-- A split result: a permutation whose first `m` items satisfy `P` and whose other items satisfy
`Q`. -/
def SplitOk (items : List α) (P Q : α → Prop) (res : List α × ℕ) : Prop :=
  res.1.Perm items ∧ res.2 ≤ items.length ∧
  (∀ x ∈ res.1.take res.2, P x) ∧ (∀ x ∈ res.1.drop res.2, Q x)

section
variable [Field K] [LinearOrder K]

theorem splitItemSerial_ok (key : α → K) (xM : K) (items : List α) (h : 2 ≤ items.length) :
    ∃ res, splitItemSerial key xM items = .ok res ∧
      SplitOk items (fun x => key x < xM) (fun x => xM ≤ key x) res := by
  unfold splitItemSerial
  rw [if_neg (by omega)]
  obtain ⟨a, l, h1, h2, h3, h4, h5⟩ := splitLoop_ok (fun x => decide (key x ≥ xM))
    (items.length + 1) items 0 (items.length - 1) (by omega) (by omega) (by omega) (by omega)
    (by intro i hi; omega) (by
      intro i hi x hx
      have := (List.getElem?_eq_some_iff.mp hx).1
      omega)
  rw [h1]
  simp only [List.getElem?_eq_getElem h3]
  have hlen : a.length = items.length := h2.length_eq
  refine ⟨_, rfl, h2, ?_, ?_, ?_⟩
  · simp only; split <;> omega
  · intro x hx
    rw [List.mem_take_iff_getElem] at hx
    obtain ⟨i, hi, rfl⟩ := hx
    rcases Nat.lt_trichotomy i l with h | rfl | h
    · have := h4 i h a[i] (List.getElem?_eq_getElem _)
      simpa using this
    · by_contra hc
      rw [if_neg hc] at hi
      omega
    · exfalso
      split at hi <;> omega
  · intro x hx
    rw [List.mem_drop_iff_getElem] at hx
    obtain ⟨i, hi, rfl⟩ := hx
    by_cases hc : key a[l] < xM
    · simp only [if_pos hc] at hi ⊢
      have := h5 (l + 1 + i) (by omega) a[l + 1 + i] (List.getElem?_eq_getElem _)
      simpa using this
    · simp only [if_neg hc] at hi ⊢
      rcases Nat.eq_zero_or_pos i with rfl | h
      · simpa using hc
      · have := h5 (l + i) (by omega) a[l + i] (List.getElem?_eq_getElem _)
        simpa using this

theorem mapM_id_map_some (l : List α) : (l.map some).mapM id = some l := by
  induction l with
  | nil => rfl
  | cons a l ih => simp [List.mapM_cons, ih]

theorem zip_map_filter (l : List α) (f : α → Bool) (q : Bool → Bool) :
    ((l.zip (l.map f)).filter (fun a => q a.2)).map Prod.fst = l.filter (fun x => q (f x)) := by
  induction l with
  | nil => rfl
  | cons a l ih =>
    simp only [List.map_cons, List.zip_cons_cons, List.filter_cons]
    cases q (f a) <;> simp [ih]

theorem splitParallel_ok (bs : ℕ) (hb : 0 < bs) (key : α → K) (xM : K) (items : List α) :
    ∃ res, splitParallel bs key xM items = .ok res ∧
      SplitOk items (fun x => xM ≤ key x) (fun x => key x < xM) res := by
  have h := Par.c11_split_two bs hb items (items.map fun x => decide (key x < xM)) (by simp)
    _ (List.Perm.refl _)
  rw [zip_map_filter items _ (fun b => !b), zip_map_filter items _ (fun b => b)] at h
  unfold splitParallel
  simp only [h.1, mapM_id_map_some, h.2]
  refine ⟨_, rfl, ?_, ?_, ?_, ?_⟩
  · simp only
    refine List.perm_append_comm.trans ?_
    exact List.filter_append_perm _ _
  · exact List.length_filter_le _ _
  · intro x hx
    rw [List.take_left] at hx
    have := (List.mem_filter.mp hx).2
    simpa using this
  · intro x hx
    rw [List.drop_left] at hx
    have := (List.mem_filter.mp hx).2
    simpa using this

/-! ### Widest dimension -/

variable [IsStrictOrderedRing K]

theorem findWidest_fold (b : Box K d) (l : List (Fin d)) (s : K × Option (Fin d)) :
    let r := l.foldl (fun (s : K × Option (Fin d)) kk =>
      if b.hi kk - b.lo kk > s.1 then (b.hi kk - b.lo kk, some kk) else s) s
    s.1 ≤ r.1 ∧ (∀ k ∈ l, b.hi k - b.lo k ≤ r.1) ∧
    (r = s ∨ ∃ k ∈ l, r = (b.hi k - b.lo k, some k)) := by
  induction l generalizing s with
  | nil => simp
  | cons a l ih =>
    simp only [List.foldl_cons]
    split
    · rename_i hgt
      obtain ⟨h1, h2, h3⟩ := ih (b.hi a - b.lo a, some a)
      refine ⟨hgt.le.trans h1, ?_, ?_⟩
      · intro k hk
        rcases List.mem_cons.mp hk with rfl | hk
        · exact h1
        · exact h2 k hk
      · rcases h3 with h3 | ⟨k, hk, h3⟩
        · right; exact ⟨a, by simp, h3⟩
        · right; exact ⟨k, by simp [hk], h3⟩
    · rename_i hgt
      obtain ⟨h1, h2, h3⟩ := ih s
      refine ⟨h1, ?_, ?_⟩
      · intro k hk
        rcases List.mem_cons.mp hk with rfl | hk
        · exact (not_lt.mp hgt).trans h1
        · exact h2 k hk
      · rcases h3 with h3 | ⟨k, hk, h3⟩
        · left; exact h3
        · right; exact ⟨k, by simp [hk], h3⟩

theorem findWidest_ok (b : Box K d) (hd : 0 < d) (hb : ∀ i, b.lo i ≤ b.hi i) :
    ∃ k, findWidest b = .ok k ∧ ∀ i, b.hi i - b.lo i ≤ b.hi k - b.lo k := by
  obtain ⟨h1, h2, h3⟩ := findWidest_fold b (List.finRange d) (-1, none)
  unfold findWidest
  rcases h3 with h3 | ⟨k, _, h3⟩
  · exfalso
    have h := h2 ⟨0, hd⟩ (List.mem_finRange _)
    rw [h3] at h
    have := hb ⟨0, hd⟩
    simp only at h
    linarith
  · rw [h3]
    refine ⟨k, rfl, fun i => ?_⟩
    have h := h2 i (List.mem_finRange _)
    rw [h3] at h
    exact h

end

end Verif.KdTree
