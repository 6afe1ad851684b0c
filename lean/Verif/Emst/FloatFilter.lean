import Verif.Emst.FloatModel
import Verif.Emst.Filter
import Verif.KdTree.WspdFloatProps

set_option linter.unusedSectionVars false
set_option linter.unusedVariables false

/-! The filtered traversals in rounded arithmetic report a part of the decomposition; what is missing
was cut. -/

namespace Verif.Emst

open Verif.KdTree Verif.UF Verif.Mst

variable {d : ℕ} {α : Type}

theorem findPairSerialFl_below (fl : ℝ → ℝ) (ws : Tree α ℝ d → Tree α ℝ d → Bool) (fuel : ℕ) (u v : Tree α ℝ d)
    (out : List (Tree α ℝ d × Tree α ℝ d)) (h : findPairSerialFl fl ws fuel u v = .ok out) :
    ∀ P ∈ out, TPair P u v := by
  induction fuel generalizing u v out with
  | zero => cases h
  | succ fuel ih =>
    unfold findPairSerialFl at h
    split_ifs at h with hws
    · cases h
      intro P hP
      rw [List.mem_singleton] at hP
      subst hP
      exact Or.inl ⟨.refl _, .refl _⟩
    · have split : ∀ (b : Box ℝ d) (l r w : Tree α ℝ d),
          (do return (← findPairSerialFl fl ws fuel l w) ++ (← findPairSerialFl fl ws fuel r w)) =
            (.ok out : Except Err _) → ∀ P ∈ out, TPair P (.node b l r) w := by
        intro b l r w h P hP
        obtain ⟨o1, o2, h1, h2, rfl⟩ := bind_append_ok h
        rcases List.mem_append.mp hP with hP | hP
        · exact (ih _ _ _ h1 P hP).left
        · exact (ih _ _ _ h2 P hP).right
      cases u with
      | leaf bu iu =>
        cases v with
        | leaf bv iv => cases h
        | node bv vl vr => exact fun P hP => (split bv vl vr _ h P hP).swap
      | node bu ul ur =>
        cases v with
        | leaf bv iv => exact split bu ul ur _ h
        | node bv vl vr =>
          simp only at h
          split_ifs at h
          · exact split bu ul ur _ h
          · exact fun P hP => (split bv vl vr _ h P hP).swap

theorem findPairSerialFFl_spec (fl : ℝ → ℝ) (m : NTree α ℝ d → NTree α ℝ d → Bool) (ws : Tree α ℝ d → Tree α ℝ d → Bool)
    (fuel : ℕ) (u v : NTree α ℝ d) (out0 : List (Tree α ℝ d × Tree α ℝ d))
    (h : findPairSerialFl fl ws fuel u.tree v.tree = .ok out0) :
    FSpec (fun a b => m a b = false) u v out0 (findPairSerialFFl fl m ws fuel u v) := by
  induction fuel generalizing u v out0 with
  | zero => cases h
  | succ fuel ih =>
    have hbel := findPairSerialFl_below fl ws _ _ _ _ h
    unfold findPairSerialFFl
    by_cases hm : m u v
    · rw [if_neg (by simp [hm])]
      unfold findPairSerialFl at h
      by_cases hws : ws u.tree v.tree
      · rw [if_pos hws] at h ⊢
        cases h
        exact .emit
      · rw [if_neg hws] at h ⊢
        have split : ∀ i b (l r w : NTree α ℝ d),
            (do return (← findPairSerialFl fl ws fuel l.tree w.tree) ++ (← findPairSerialFl fl ws fuel r.tree w.tree)) =
              (.ok out0 : Except Err _) →
            FSpec (fun a b => m a b = false) (.node i b l r) w out0
              ((findPairSerialFFl fl m ws fuel l w).bind fun o1 => (findPairSerialFFl fl m ws fuel r w).map fun o2 =>
                o1 ++ o2) := by
          intro i b l r w h
          obtain ⟨o1, o2, h1, h2, rfl⟩ := bind_append_ok h
          exact (ih _ _ _ h1).node (ih _ _ _ h2)
        cases u with
        | leaf ju bu iu =>
          cases v with
          | leaf jv bv iv => cases h
          | node jv bv vl vr => exact (split jv bv vl vr (.leaf ju bu iu) h).swap
        | node ju bu ul ur =>
          cases v with
          | leaf jv bv iv => exact split ju bu ul ur (.leaf jv bv iv) h
          | node jv bv vl vr =>
            simp only [NTree.tree] at h ⊢
            split_ifs at h ⊢
            · exact split ju bu ul ur (.node jv bv vl vr) h
            · exact (split jv bv vl vr (.node ju bu ul ur) h).swap
    · rw [if_pos (by simp [hm])]
      exact .cut (by simpa using hm) hbel

theorem findPairParallelFFl_spec (fl : ℝ → ℝ) (m mS : NTree α ℝ d → NTree α ℝ d → Bool)
    (ws : Tree α ℝ d → Tree α ℝ d → Bool)
    (fuel : ℕ) (u v : NTree α ℝ d) (out0 : List (Tree α ℝ d × Tree α ℝ d))
    (h : findPairSerialFl fl ws fuel u.tree v.tree = .ok out0) :
    FSpec (fun a b => m a b = false ∨ mS a b = false) u v out0 (findPairParallelFFl fl m mS ws fuel u v) := by
  induction fuel generalizing u v out0 with
  | zero => cases h
  | succ fuel ih =>
    have hbel := findPairSerialFl_below fl ws _ _ _ _ h
    unfold findPairParallelFFl
    by_cases hm : m u v
    · rw [if_neg (by simp [hm])]
      split
      · exact (findPairSerialFFl_spec fl mS ws _ u v out0 h).mono fun a b h => Or.inr h
      unfold findPairSerialFl at h
      by_cases hws : ws u.tree v.tree
      · rw [if_pos hws] at h ⊢
        cases h
        exact .emit
      · rw [if_neg hws] at h ⊢
        have split : ∀ i b (l r w : NTree α ℝ d),
            (do return (← findPairSerialFl fl ws fuel l.tree w.tree) ++ (← findPairSerialFl fl ws fuel r.tree w.tree)) =
              (.ok out0 : Except Err _) →
            FSpec (fun a b => m a b = false ∨ mS a b = false) (.node i b l r) w out0
              ((findPairParallelFFl fl m mS ws fuel l w).bind fun o1 =>
                (findPairParallelFFl fl m mS ws fuel r w).map fun o2 => o1 ++ o2) := by
          intro i b l r w h
          obtain ⟨o1, o2, h1, h2, rfl⟩ := bind_append_ok h
          exact (ih _ _ _ h1).node (ih _ _ _ h2)
        cases u with
        | leaf ju bu iu =>
          cases v with
          | leaf jv bv iv => cases h
          | node jv bv vl vr => exact (split jv bv vl vr (.leaf ju bu iu) h).swap
        | node ju bu ul ur =>
          cases v with
          | leaf jv bv iv => exact split ju bu ul ur (.leaf jv bv iv) h
          | node jv bv vl vr =>
            simp only [NTree.tree] at h ⊢
            split_ifs at h ⊢
            · exact split ju bu ul ur (.node jv bv vl vr) h
            · exact (split jv bv vl vr (.node ju bu ul ur) h).swap
    · rw [if_pos (by simp [hm])]
      exact .cut (Or.inl (by simpa using hm)) hbel

theorem wspdSerialFl_below (fl : ℝ → ℝ) (ws : Tree α ℝ d → Tree α ℝ d → Bool) (t : Tree α ℝ d)
    (out : List (Tree α ℝ d × Tree α ℝ d)) (h : wspdSerialFl fl ws t = .ok out) :
    ∀ P ∈ out, Below P.1 t ∧ Below P.2 t := by
  induction t generalizing out with
  | leaf b items => cases h; simp
  | node b l r ihl ihr =>
    unfold wspdSerialFl at h
    obtain ⟨o1, o2, o3, h1, h2, h3, rfl⟩ := bind_append3_ok h
    intro P hP
    simp only [List.mem_append] at hP
    rcases hP with (hP | hP) | hP
    · exact ⟨.left (ihl _ h1 P hP).1, .left (ihl _ h1 P hP).2⟩
    · exact ⟨.right (ihr _ h2 P hP).1, .right (ihr _ h2 P hP).2⟩
    · rcases findPairSerialFl_below fl ws _ _ _ _ h3 P hP with h | h
      · exact ⟨.left h.1, .right h.2⟩
      · exact ⟨.right h.1, .left h.2⟩

theorem wspdSerialFFl_spec (fl : ℝ → ℝ) (start : NTree α ℝ d → Bool) (m : NTree α ℝ d → NTree α ℝ d → Bool)
    (ws : Tree α ℝ d → Tree α ℝ d → Bool) (t : NTree α ℝ d) (out0 : List (Tree α ℝ d × Tree α ℝ d))
    (h : wspdSerialFl fl ws t.tree = .ok out0) :
    WSpec start (fun a b => m a b = false) t out0 (wspdSerialFFl fl start m ws t) := by
  induction t generalizing out0 with
  | leaf i b items => cases h; exact ⟨[], rfl, by simp, by simp⟩
  | node i b l r ihl ihr =>
    simp only [NTree.tree, wspdSerialFl] at h
    obtain ⟨o1, o2, o3, h1, h2, h3, rfl⟩ := bind_append3_ok h
    unfold wspdSerialFFl
    split
    · exact (ihl _ h1).node (ihr _ h2) (findPairSerialFFl_spec fl m ws _ l r _ h3)
    · rename_i hs
      exact .start (by simpa using hs) (wspdSerialFl_below fl ws _ _ h1) (wspdSerialFl_below fl ws _ _ h2)
        (findPairSerialFl_below fl ws _ _ _ _ h3)

theorem wspdParallelFFl_spec (fl : ℝ → ℝ) (start : NTree α ℝ d → Bool) (m mS : NTree α ℝ d → NTree α ℝ d → Bool)
    (ws : Tree α ℝ d → Tree α ℝ d → Bool) (t : NTree α ℝ d) (out0 : List (Tree α ℝ d × Tree α ℝ d))
    (h : wspdSerialFl fl ws t.tree = .ok out0) :
    WSpec start (fun a b => m a b = false ∨ mS a b = false) t out0 (wspdParallelFFl fl start m mS ws t) := by
  induction t generalizing out0 with
  | leaf i b items =>
    unfold wspdParallelFFl
    cases h
    split <;> exact ⟨[], rfl, by simp, by simp⟩
  | node i b l r ihl ihr =>
    unfold wspdParallelFFl
    split
    · exact (wspdSerialFFl_spec fl start mS ws _ _ h).mono fun a b h => Or.inr h
    simp only [NTree.tree, wspdSerialFl] at h
    obtain ⟨o1, o2, o3, h1, h2, h3, rfl⟩ := bind_append3_ok h
    split
    · exact (ihl _ h1).node (ihr _ h2) (findPairParallelFFl_spec fl m mS ws _ l r _ h3)
    · rename_i hs
      exact .start (by simpa using hs) (wspdSerialFl_below fl ws _ _ h1) (wspdSerialFl_below fl ws _ _ h2)
        (findPairSerialFl_below fl ws _ _ _ _ h3)

end Verif.Emst
