import Verif.KdTree.WspdModel
import Verif.KdTree.BccpLemmas

set_option linter.unusedSectionVars false
set_option linter.unusedVariables false

namespace Verif.KdTree

open Classical in
/-- Specification: the node pair `p` covers the items `x`, `y` if one is in the first and the other
in the second node. -/
def Covers {α K : Type} {d : ℕ} (x y : α) (p : Tree α K d × Tree α K d) : Prop :=
  (x ∈ p.1.items ∧ y ∈ p.2.items) ∨ (y ∈ p.1.items ∧ x ∈ p.2.items)

variable {α K : Type} {d : ℕ} [Field K] [LinearOrder K]

theorem Covers.swap {x y : α} {a b : Tree α K d} : Covers x y (a, b) ↔ Covers x y (b, a) := by
  unfold Covers
  simp only
  tauto

/-- `t'` is `t` or a node below it. -/
inductive Below : Tree α K d → Tree α K d → Prop
  | refl (t) : Below t t
  | left {t b l r} : Below t l → Below t (.node b l r)
  | right {t b l r} : Below t r → Below t (.node b l r)

theorem Below.trans {a b c : Tree α K d} (h1 : Below a b) (h2 : Below b c) : Below a c := by
  induction h2 with
  | refl => exact h1
  | left _ ih => exact .left ih
  | right _ ih => exact .right ih

open Classical in
/-- The number of reported pairs covering `x` and `y`, for pairs across `u` and `v`. -/
theorem findPairSerial_ok (ws : Tree α K d → Tree α K d → Bool) (fuel : ℕ) (u v : Tree α K d)
    (hf : u.height + v.height < fuel)
    (hleaf : ∀ bu iu bv iv, Below (.leaf bu iu) u → Below (.leaf bv iv) v →
      ws (.leaf bu iu) (.leaf bv iv) = true ∧ ws (.leaf bv iv) (.leaf bu iu) = true)
    (hnd : (u.items ++ v.items).Nodup) :
    ∃ out, findPairSerial ws fuel u v = .ok out ∧
      (∀ p ∈ out, ws p.1 p.2 = true ∧
        ((Below p.1 u ∧ Below p.2 v) ∨ (Below p.1 v ∧ Below p.2 u))) ∧
      ∀ x y, (out.countP fun p => Covers x y p) = if Covers x y (u, v) then 1 else 0 := by
  induction fuel generalizing u v with
  | zero => omega
  | succ fuel ih =>
    unfold findPairSerial
    by_cases hws : ws u v
    · rw [if_pos hws]
      refine ⟨_, rfl, ?_, ?_⟩
      · intro p hp
        simp only [List.mem_singleton] at hp
        subst hp
        exact ⟨hws, Or.inl ⟨.refl _, .refl _⟩⟩
      · intro x y
        simp [List.countP_cons]
    · rw [if_neg hws]
      -- splitting the first of two trees
      have split : ∀ (b : Box K d) (l r w : Tree α K d),
          (Tree.node b l r).height + w.height < fuel + 1 →
          (∀ bu iu bv iv, Below (.leaf bu iu) (.node b l r) → Below (.leaf bv iv) w →
            ws (.leaf bu iu) (.leaf bv iv) = true ∧ ws (.leaf bv iv) (.leaf bu iu) = true) →
          ((Tree.node b l r).items ++ w.items).Nodup →
          ∃ o1 o2, findPairSerial ws fuel l w = .ok o1 ∧ findPairSerial ws fuel r w = .ok o2 ∧
            (∀ p ∈ o1 ++ o2, ws p.1 p.2 = true ∧
              ((Below p.1 (.node b l r) ∧ Below p.2 w) ∨
               (Below p.1 w ∧ Below p.2 (.node b l r)))) ∧
            ∀ x y, ((o1 ++ o2).countP fun p => Covers x y p) =
              if Covers x y (.node b l r, w) then 1 else 0 := by
        intro b l r w hh hl hn
        simp only [Tree.height] at hh
        simp only [Tree.items] at hn
        have hn1 : (l.items ++ w.items).Nodup := by
          refine hn.sublist ?_
          exact (List.sublist_append_left _ _).append_right _
        have hn2 : (r.items ++ w.items).Nodup := by
          refine hn.sublist ?_
          exact (List.sublist_append_right _ _).append_right _
        obtain ⟨o1, h1, h2, h3⟩ := ih l w (by omega)
          (fun bu iu bv iv ha hb => hl bu iu bv iv (.left ha) hb) hn1
        obtain ⟨o2, h4, h5, h6⟩ := ih r w (by omega)
          (fun bu iu bv iv ha hb => hl bu iu bv iv (.right ha) hb) hn2
        refine ⟨o1, o2, h1, h4, ?_, ?_⟩
        · intro p hp
          rw [List.mem_append] at hp
          rcases hp with hp | hp
          · refine ⟨(h2 p hp).1, ?_⟩
            rcases (h2 p hp).2 with h | h
            · exact Or.inl ⟨.left h.1, h.2⟩
            · exact Or.inr ⟨h.1, .left h.2⟩
          · refine ⟨(h5 p hp).1, ?_⟩
            rcases (h5 p hp).2 with h | h
            · exact Or.inl ⟨.right h.1, h.2⟩
            · exact Or.inr ⟨h.1, .right h.2⟩
        · intro x y
          rw [List.countP_append, h3, h6]
          rw [List.nodup_append] at hn
          obtain ⟨hn3, hn4, hn5⟩ := hn
          rw [List.nodup_append] at hn3
          obtain ⟨-, -, hn6⟩ := hn3
          have key : ¬ (Covers x y (l, w) ∧ Covers x y (r, w)) := by
            unfold Covers
            simp only
            rintro ⟨h7, h8⟩
            rcases h7 with ⟨a1, a2⟩ | ⟨a1, a2⟩ <;> rcases h8 with ⟨b1, b2⟩ | ⟨b1, b2⟩
            · exact hn6 _ a1 _ b1 rfl
            · exact hn5 _ (List.mem_append_left _ a1) _ b2 rfl
            · exact hn5 _ (List.mem_append_right _ b1) _ a2 rfl
            · exact hn6 _ a1 _ b1 rfl
          have hor : Covers x y (.node b l r, w) ↔ Covers x y (l, w) ∨ Covers x y (r, w) := by
            unfold Covers
            simp only [Tree.items, List.mem_append]
            tauto
          by_cases c1 : Covers x y (l, w) <;> by_cases c2 : Covers x y (r, w)
          · exact absurd ⟨c1, c2⟩ key
          · rw [if_pos c1, if_neg c2, if_pos (hor.mpr (Or.inl c1))]
          · rw [if_neg c1, if_pos c2, if_pos (hor.mpr (Or.inr c2))]
          · rw [if_neg c1, if_neg c2, if_neg (fun h => (hor.mp h).elim c1 c2)]
      have hleaf' : ∀ bu iu bv iv, Below (.leaf bu iu) v → Below (.leaf bv iv) u →
          ws (.leaf bu iu) (.leaf bv iv) = true ∧ ws (.leaf bv iv) (.leaf bu iu) = true :=
        fun bu iu bv iv h1 h2 => (hleaf bv iv bu iu h2 h1).symm
      have hnd' : (v.items ++ u.items).Nodup := List.perm_append_comm.nodup_iff.mp hnd
      cases u with
      | leaf bu iu =>
        cases v with
        | leaf bv iv => exact absurd (hleaf bu iu bv iv (.refl _) (.refl _)).1 hws
        | node bv vl vr =>
          obtain ⟨o1, o2, h1, h2, h3, h4⟩ := split bv vl vr (.leaf bu iu) (by omega) hleaf' hnd'
          refine ⟨o1 ++ o2, ?_, ?_, ?_⟩
          · simp only [h1, h2, bind, Except.bind, pure, Except.pure]
          · intro p hp
            exact ⟨(h3 p hp).1, (h3 p hp).2.symm⟩
          · intro x y
            rw [h4, Covers.swap]
      | node bu ul ur =>
        cases v with
        | leaf bv iv =>
          obtain ⟨o1, o2, h1, h2, h3, h4⟩ := split bu ul ur (.leaf bv iv) hf hleaf hnd
          refine ⟨o1 ++ o2, ?_, h3, h4⟩
          simp only [h1, h2, bind, Except.bind, pure, Except.pure]
        | node bv vl vr =>
          simp only
          by_cases hl : lMax bu > lMax bv
          · rw [if_pos hl]
            obtain ⟨o1, o2, h1, h2, h3, h4⟩ := split bu ul ur (.node bv vl vr) hf hleaf hnd
            refine ⟨o1 ++ o2, ?_, h3, h4⟩
            simp only [h1, h2, bind, Except.bind, pure, Except.pure]
          · rw [if_neg hl]
            obtain ⟨o1, o2, h1, h2, h3, h4⟩ := split bv vl vr (.node bu ul ur) (by omega) hleaf' hnd'
            refine ⟨o1 ++ o2, ?_, ?_, ?_⟩
            · simp only [h1, h2, bind, Except.bind, pure, Except.pure]
            · intro p hp
              exact ⟨(h3 p hp).1, (h3 p hp).2.symm⟩
            · intro x y
              rw [h4, Covers.swap]

/-- Every leaf holds at most one item. -/
def SingleLeaves (t : Tree α K d) : Prop := ∀ b items, Below (.leaf b items) t → items.length ≤ 1

open Classical in
theorem count_aux {A B C D : Prop} (hx : A → B → False) (hy : C → D → False) :
    (if A ∧ C then 1 else 0) + (if B ∧ D then 1 else 0) +
      (if A ∧ D ∨ C ∧ B then 1 else 0) = if (A ∨ B) ∧ (C ∨ D) then 1 else 0 := by
  by_cases a : A <;> by_cases b : B <;> by_cases c : C <;> by_cases e : D <;> simp_all

open Classical in
theorem wspdSerial_ok (ws : Tree α K d → Tree α K d → Bool) (t : Tree α K d)
    (hleaf : ∀ bu iu bv iv, Below (.leaf bu iu) t → Below (.leaf bv iv) t →
      ws (.leaf bu iu) (.leaf bv iv) = true)
    (hs : SingleLeaves t) (hnd : t.items.Nodup) :
    ∃ out, wspdSerial ws t = .ok out ∧
      (∀ p ∈ out, ws p.1 p.2 = true ∧ Below p.1 t ∧ Below p.2 t ∧
        ∀ x ∈ p.1.items, ∀ y ∈ p.2.items, x ≠ y) ∧
      ∀ x y, (out.countP fun p => Covers x y p) =
        if x ∈ t.items ∧ y ∈ t.items ∧ x ≠ y then 1 else 0 := by
  induction t with
  | leaf b items =>
    refine ⟨[], rfl, by simp, ?_⟩
    intro x y
    have := hs b items (.refl _)
    rw [if_neg]
    · rfl
    rintro ⟨h1, h2, h3⟩
    simp only [Tree.items] at h1 h2
    match items, this with
    | [], _ => simp at h1
    | [a], _ =>
      simp at h1 h2
      exact h3 (h1.trans h2.symm)
  | node b l r ihl ihr =>
    have hnd' : (l.items ++ r.items).Nodup := hnd
    rw [List.nodup_append] at hnd'
    obtain ⟨n1, n2, n3⟩ := hnd'
    obtain ⟨o1, h1, h2, h3⟩ := ihl (fun bu iu bv iv ha hb => hleaf bu iu bv iv (.left ha) (.left hb))
      (fun b items h => hs b items (.left h)) n1
    obtain ⟨o2, h4, h5, h6⟩ := ihr
      (fun bu iu bv iv ha hb => hleaf bu iu bv iv (.right ha) (.right hb))
      (fun b items h => hs b items (.right h)) n2
    obtain ⟨o3, h7, h8, h9⟩ := findPairSerial_ok ws (l.height + r.height + 1) l r (by omega)
      (fun bu iu bv iv ha hb => ⟨hleaf bu iu bv iv (.left ha) (.right hb),
        hleaf bv iv bu iu (.right hb) (.left ha)⟩) hnd
    have sub : ∀ {a t : Tree α K d}, Below a t → ∀ x ∈ a.items, x ∈ t.items := by
      intro a t h
      induction h with
      | refl => exact fun x hx => hx
      | left _ ih => exact fun x hx => List.mem_append_left _ (ih x hx)
      | right _ ih => exact fun x hx => List.mem_append_right _ (ih x hx)
    refine ⟨o1 ++ o2 ++ o3, ?_, ?_, ?_⟩
    · unfold wspdSerial
      simp only [h1, h4, h7, bind, Except.bind, pure, Except.pure]
    · intro p hp
      simp only [List.mem_append] at hp
      rcases hp with (hp | hp) | hp
      · obtain ⟨a1, a2, a3, a4⟩ := h2 p hp
        exact ⟨a1, .left a2, .left a3, a4⟩
      · obtain ⟨a1, a2, a3, a4⟩ := h5 p hp
        exact ⟨a1, .right a2, .right a3, a4⟩
      · obtain ⟨a1, a2⟩ := h8 p hp
        rcases a2 with ⟨a2, a3⟩ | ⟨a2, a3⟩
        · exact ⟨a1, .left a2, .right a3, fun x hx y hy => n3 x (sub a2 x hx) y (sub a3 y hy)⟩
        · exact ⟨a1, .right a2, .left a3,
            fun x hx y hy h => n3 y (sub a3 y hy) x (sub a2 x hx) h.symm⟩
    · intro x y
      rw [List.countP_append, List.countP_append, h3, h6, h9]
      unfold Covers
      simp only [Tree.items, List.mem_append]
      have nlr : ∀ a, a ∈ l.items → a ∈ r.items → False := fun a ha hb => n3 a ha a hb rfl
      by_cases hxy : x = y
      · subst hxy
        have := nlr x
        simp only [ne_eq, not_true, and_false, if_false, zero_add]
        rw [if_neg]
        tauto
      · have hx := nlr x
        have hy := nlr y
        simp only [ne_eq, hxy, not_false_eq_true, and_true]
        convert count_aux hx hy

theorem findPairParallel_eq (ws : Tree α K d → Tree α K d → Bool) (fuel : ℕ) (u v : Tree α K d) :
    findPairParallel ws fuel u v = findPairSerial ws fuel u v := by
  induction fuel generalizing u v with
  | zero => rfl
  | succ fuel ih =>
    unfold findPairParallel
    split
    · rfl
    · unfold findPairSerial
      simp only [ih]

theorem wspdParallel_eq (ws : Tree α K d → Tree α K d → Bool) (t : Tree α K d) :
    wspdParallel ws t = wspdSerial ws t := by
  induction t with
  | leaf b items =>
    unfold wspdParallel
    split <;> rfl
  | node b l r ihl ihr =>
    unfold wspdParallel
    split
    · rfl
    · rw [ihl, ihr, findPairParallel_eq]
      rfl

end Verif.KdTree
