import Mathlib.Data.List.Perm.Basic
import Mathlib.Tactic.Ring
import Verif.BatchKd.TreeModel

set_option linter.unusedSectionVars false
set_option linter.unusedVariables false

namespace Verif.BatchKd

variable {α K : Type} {d : ℕ}

/-! ### Slices -/

theorem slots_append (items : List α) (present : List Bool) (s m e : ℕ) (h1 : s ≤ m) (h2 : m ≤ e) :
    slots items present s e = slots items present s m ++ slots items present m e := by
  unfold slots
  generalize items.zip present = Z
  have e1 : e - s = (m - s) + (e - m) := by omega
  rw [e1, List.take_add, List.drop_drop]
  congr 3
  omega

theorem live_append (items : List α) (present : List Bool) (s m e : ℕ) (h1 : s ≤ m) (h2 : m ≤ e) :
    live items present s e = live items present s m ++ live items present m e := by
  unfold live
  rw [slots_append items present s m e h1 h2, List.filter_append, List.map_append]

theorem slots_length (items : List α) (present : List Bool) (s e : ℕ)
    (hlen : items.length ≤ present.length) (he : e ≤ items.length) :
    (slots items present s e).length = e - s := by
  unfold slots
  rw [List.length_take, List.length_drop, List.length_zip]
  omega

theorem slots_map_fst (items : List α) (present : List Bool) (s e : ℕ)
    (hlen : items.length = present.length) :
    (slots items present s e).map Prod.fst = (items.drop s).take (e - s) := by
  unfold slots
  rw [List.map_take, List.map_drop, List.map_fst_zip (by omega)]

theorem slots_getElem? (items : List α) (present : List Bool) (s e j : ℕ) (hj : j < e - s) :
    (slots items present s e)[j]? = (items.zip present)[s + j]? := by
  unfold slots
  rw [List.getElem?_take, if_pos hj, List.getElem?_drop]

theorem zip_getElem? (items : List α) (present : List Bool) (i : ℕ) :
    (items.zip present)[i]? = (items[i]?).bind fun a => (present[i]?).map fun b => (a, b) := by
  rw [List.zip, List.getElem?_zipWith']
  cases items[i]? <;> rfl

theorem slots_ext (items : List α) (p1 p2 : List Bool) (s e : ℕ)
    (h : ∀ j, s ≤ j → j < e → p1[j]? = p2[j]?) : slots items p1 s e = slots items p2 s e := by
  apply List.ext_getElem?
  intro i
  by_cases hi : i < e - s
  · rw [slots_getElem? _ _ _ _ _ hi, slots_getElem? _ _ _ _ _ hi, zip_getElem?, zip_getElem?,
      h (s + i) (by omega) (by omega)]
  · unfold slots
    rw [List.getElem?_take, if_neg hi, List.getElem?_take, if_neg hi]

/-- Clearing a flag inside a slice. -/
theorem slots_set_in (items : List α) (present : List Bool) (s e j : ℕ) (hj : j < e - s)
    (hp : s + j < present.length) :
    slots items (present.set (s + j) false) s e =
      (slots items present s e).modify j fun x => (x.1, false) := by
  apply List.ext_getElem?
  intro i
  rw [List.getElem?_modify]
  by_cases hi : i < e - s
  · rw [slots_getElem? _ _ _ _ _ hi, slots_getElem? _ _ _ _ _ hi, zip_getElem?, zip_getElem?]
    by_cases hij : j = i
    · subst hij
      rw [List.getElem?_set_self hp]
      cases h1 : items[s + j]? with
      | none => rfl
      | some a => simp [List.getElem?_eq_getElem hp]
    · rw [List.getElem?_set_ne (by omega)]
      simp [hij]
  · have h1 : ∀ q, (slots items q s e)[i]? = none := fun q => by
      unfold slots
      rw [List.getElem?_take, if_neg hi]
    rw [h1, h1]
    rfl

/-- Clearing the flag of the first live element satisfying `P` erases the first such element. -/
theorem filter_clear_first (P : α → Bool) (Z : List (α × Bool)) (j : ℕ)
    (h : Z.findIdx? (fun x => x.2 && P x.1) = some j) :
    (((Z.modify j fun x => (x.1, false)).filter fun x => x.2).map fun x => x.1) =
      (((Z.filter fun x => x.2).map fun x => x.1)).eraseP P := by
  induction Z generalizing j with
  | nil => simp at h
  | cons z Z ih =>
    obtain ⟨a, b⟩ := z
    rw [List.findIdx?_cons] at h
    cases b with
    | false =>
      simp only [Bool.false_and, Bool.false_eq_true, if_false] at h
      rw [Option.map_eq_some_iff] at h
      obtain ⟨j', h1, rfl⟩ := h
      simpa using ih j' h1
    | true =>
      by_cases hP : P a
      · simp only [hP, Bool.and_self, if_true, Option.some.injEq] at h
        subst h
        simp [hP]
      · simp only [hP, Bool.and_false, Bool.false_eq_true, if_false] at h
        rw [Option.map_eq_some_iff] at h
        obtain ⟨j', h1, rfl⟩ := h
        have := ih j' h1
        simp only [List.modify_succ_cons, List.filter_cons, if_true, List.map_cons]
        rw [List.eraseP_cons_of_neg (by simpa using hP), ← this]

theorem eraseP_not_found (P : α → Bool) (Z : List (α × Bool))
    (h : Z.findIdx? (fun x => x.2 && P x.1) = none) :
    (((Z.filter fun x => x.2).map fun x => x.1)).eraseP P = (Z.filter fun x => x.2).map fun x => x.1 := by
  apply List.eraseP_of_forall_not
  intro a ha
  rw [List.mem_map] at ha
  obtain ⟨x, hx, rfl⟩ := ha
  rw [List.mem_filter] at hx
  rw [List.findIdx?_eq_none_iff] at h
  have := h x hx.1
  rw [hx.2, Bool.true_and] at this
  simp [this]

section
variable [Field K] [LinearOrder K]
variable (pos : α → Point K d)

/-- Specification: for each listed point remove the first item at that position. -/
def eraseAll (pts : List (Point K d)) (L : List α) : List α :=
  pts.foldl (fun L p => L.eraseP fun x => decide (pos x = p)) L

theorem eraseAll_sublist (pts : List (Point K d)) (L : List α) : (eraseAll pos pts L).Sublist L := by
  unfold eraseAll
  induction pts generalizing L with
  | nil => exact List.Sublist.refl _
  | cons p pts ih => exact (ih _).trans (List.eraseP_sublist)

theorem eraseAll_append (p q : List (Point K d)) (L : List α) :
    eraseAll pos (p ++ q) L = eraseAll pos q (eraseAll pos p L) := by
  unfold eraseAll
  rw [List.foldl_append]

/-- Removals commute. -/
theorem eraseP_comm (p q : Point K d) (L : List α) :
    (L.eraseP fun x => decide (pos x = p)).eraseP (fun x => decide (pos x = q)) =
      (L.eraseP fun x => decide (pos x = q)).eraseP fun x => decide (pos x = p) := by
  by_cases hpq : p = q
  · rw [hpq]
  induction L with
  | nil => rfl
  | cons a L ih =>
    by_cases h1 : pos a = p
    · have h2 : pos a ≠ q := fun h => hpq (h1.symm.trans h)
      simp [h1, hpq]
    · by_cases h2 : pos a = q
      · simp [h2, Ne.symm hpq]
      · simpa [List.eraseP_cons, h1, h2] using ih

theorem eraseAll_perm {p q : List (Point K d)} (h : p.Perm q) (L : List α) :
    eraseAll pos p L = eraseAll pos q L := by
  unfold eraseAll
  have : RightCommutative fun (L : List α) (p : Point K d) => L.eraseP fun x => decide (pos x = p) :=
    ⟨fun L p q => eraseP_comm pos p q L⟩
  exact h.foldl_eq L

theorem eraseAll_left (pts : List (Point K d)) (A B : List α)
    (h : ∀ p ∈ pts, ∀ x ∈ B, pos x ≠ p) : eraseAll pos pts (A ++ B) = eraseAll pos pts A ++ B := by
  unfold eraseAll
  induction pts generalizing A with
  | nil => rfl
  | cons p pts ih =>
    rw [List.foldl_cons, List.foldl_cons]
    have : (A ++ B).eraseP (fun x => decide (pos x = p)) =
        A.eraseP (fun x => decide (pos x = p)) ++ B := by
      rw [List.eraseP_append]
      split
      · rfl
      · rename_i hA
        rw [List.eraseP_of_forall_not (l := B), List.eraseP_of_forall_not (l := A)]
        · intro a ha
          simp only [List.any_eq_true, decide_eq_true_eq, not_exists, not_and] at hA
          simpa using hA a ha
        · intro a ha
          simpa using h p (by simp) a ha
    rw [this]
    exact ih _ fun q hq => h q (by simp [hq])

theorem eraseAll_right (pts : List (Point K d)) (A B : List α)
    (h : ∀ p ∈ pts, ∀ x ∈ A, pos x ≠ p) : eraseAll pos pts (A ++ B) = A ++ eraseAll pos pts B := by
  unfold eraseAll
  induction pts generalizing B with
  | nil => rfl
  | cons p pts ih =>
    rw [List.foldl_cons, List.foldl_cons]
    have : (A ++ B).eraseP (fun x => decide (pos x = p)) =
        A ++ B.eraseP (fun x => decide (pos x = p)) := by
      rw [List.eraseP_append]
      rw [if_neg]
      simp only [List.any_eq_true, decide_eq_true_eq, not_exists, not_and]
      exact fun a ha => h p (by simp) a ha
    rw [this]
    exact ih _ fun q hq => h q (by simp [hq])

/-! ### Invariants -/

/-- Invariant of a subtree with respect to the item array and the flags. -/
def Good (items : List α) (present : List Bool) : BT K d → Prop
  | .nil => False
  | .leaf _ s e cnt b => s ≤ e ∧ e ≤ items.length ∧ cnt = (live items present s e).length ∧
      ∀ x ∈ live items present s e, b.Mem (pos x)
  | .node _ s e _ _ b l r => (∀ x ∈ live items present s e, b.Mem (pos x)) ∧
      Good items present l ∧ Good items present r ∧
      s ≤ l.start ∧ l.stop ≤ r.start ∧ r.stop ≤ e ∧ e ≤ items.length ∧
      live items present s l.start = [] ∧ live items present l.stop r.start = [] ∧
      live items present r.stop e = []

/-- Every node sends an item to the side where it is stored. -/
def Searchable (items : List α) (present : List Bool) : BT K d → Prop
  | .nil => True
  | .leaf _ _ _ _ _ => True
  | .node _ _ _ dim val _ l r =>
      (∀ x ∈ live items present l.start l.stop, pos x dim < val) ∧
      (∀ x ∈ live items present r.start r.stop, val ≤ pos x dim) ∧
      Searchable items present l ∧ Searchable items present r

variable {pos}

theorem Good.le {items : List α} {present : List Bool} {t : BT K d} (h : Good pos items present t) :
    t.start ≤ t.stop ∧ t.stop ≤ items.length := by
  induction t with
  | nil => exact absurd h (by simp [Good])
  | leaf idx s e cnt b => exact ⟨h.1, h.2.1⟩
  | node idx s e dim val b l r ihl ihr =>
    obtain ⟨_, h1, h2, h3, h4, h5, h6, _⟩ := h
    have := ihl h1
    have := ihr h2
    simp only [BT.start, BT.stop] at *
    omega

theorem Good.not_nil {items : List α} {present : List Bool} {t : BT K d}
    (h : Good pos items present t) : t.isNil = false := by
  cases t with
  | nil => exact absurd h (by simp [Good])
  | leaf => rfl
  | node => rfl

theorem Good.node_live {items : List α} {present : List Bool} {idx s e : ℕ} {dim : Fin d} {val : K}
    {b : Box K d} {l r : BT K d} (h : Good pos items present (.node idx s e dim val b l r)) :
    live items present s e =
      live items present l.start l.stop ++ live items present r.start r.stop := by
  obtain ⟨_, h1, h2, h3, h4, h5, h6, h7, h8, h9⟩ := h
  have hl := h1.le
  have hr := h2.le
  rw [live_append items present s l.start e h3 (by omega), h7, List.nil_append,
    live_append items present l.start l.stop e hl.1 (by omega),
    live_append items present l.stop r.start e h4 (by omega), h8, List.nil_append,
    live_append items present r.start r.stop e hr.1 h5, h9, List.append_nil]

theorem Good.box {items : List α} {present : List Bool} {t : BT K d} (h : Good pos items present t) :
    ∃ b, t.box? = some b ∧ ∀ x ∈ live items present t.start t.stop, b.Mem (pos x) := by
  cases t with
  | nil => exact absurd h (by simp [Good])
  | leaf idx s e cnt b => exact ⟨b, rfl, h.2.2.2⟩
  | node idx s e dim val b l r => exact ⟨b, rfl, h.1⟩

theorem live_congr {items : List α} {p1 p2 : List Bool} {s e s' e' : ℕ}
    (h : ∀ j, s ≤ j → j < e → p1[j]? = p2[j]?) (h1 : s ≤ s') (h2 : e' ≤ e) :
    live items p1 s' e' = live items p2 s' e' := by
  unfold live
  rw [slots_ext items p1 p2 s' e' fun j hj hj' => h j (by omega) (by omega)]

theorem Good.congr {items : List α} {p1 p2 : List Bool} {t : BT K d} (h : Good pos items p1 t)
    (heq : ∀ j, t.start ≤ j → j < t.stop → p1[j]? = p2[j]?) : Good pos items p2 t := by
  induction t with
  | nil => exact h
  | leaf idx s e cnt b =>
    simp only [BT.start, BT.stop] at heq
    unfold Good
    rw [← live_congr heq le_rfl le_rfl]
    exact h
  | node idx s e dim val b l r ihl ihr =>
    obtain ⟨h0, h1, h2, h3, h4, h5, h6, h7, h8, h9⟩ := h
    have hl := h1.le
    have hr := h2.le
    simp only [BT.start, BT.stop] at heq
    refine ⟨?_, ihl h1 fun j hj hj' => heq j (by omega) (by omega),
      ihr h2 fun j hj hj' => heq j (by omega) (by omega), h3, h4, h5, h6, ?_, ?_, ?_⟩
    · rw [← live_congr heq le_rfl le_rfl]
      exact h0
    · rw [← live_congr heq le_rfl (by omega)]
      exact h7
    · rw [← live_congr heq (by omega) (by omega)]
      exact h8
    · rw [← live_congr heq (by omega) (by omega)]
      exact h9

theorem Searchable.congr {items : List α} {p1 p2 : List Bool} {t : BT K d} (hg : Good pos items p1 t)
    (h : Searchable pos items p1 t)
    (heq : ∀ j, t.start ≤ j → j < t.stop → p1[j]? = p2[j]?) : Searchable pos items p2 t := by
  induction t with
  | nil => exact h
  | leaf idx s e cnt b => trivial
  | node idx s e dim val b l r ihl ihr =>
    obtain ⟨h0, h1, h2, h3, h4, h5, h6, h7, h8, h9⟩ := hg
    obtain ⟨g1, g2, g3, g4⟩ := h
    have hl := h1.le
    have hr := h2.le
    simp only [BT.start, BT.stop] at heq
    refine ⟨?_, ?_, ihl h1 g3 fun j hj hj' => heq j (by omega) (by omega),
      ihr h2 g4 fun j hj hj' => heq j (by omega) (by omega)⟩
    · rw [← live_congr heq (by omega) (by omega)]
      exact g1
    · rw [← live_congr heq (by omega) (by omega)]
      exact g2

end

end Verif.BatchKd
