import Verif.Emst.Model
import Verif.KdTree.WspdProps

set_option linter.unusedSectionVars false
set_option linter.unusedVariables false

/-! The filtered traversals report a part of the decomposition; what is missing was cut. -/

namespace Verif.Emst

open Verif.KdTree Verif.UF Verif.Mst

variable {d : ℕ} {K : Type} {α : Type}

/-- A node of the tree. -/
inductive NBelow : NTree α K d → NTree α K d → Prop
  | refl (t) : NBelow t t
  | left {t i b l r} : NBelow t l → NBelow t (.node i b l r)
  | right {t i b l r} : NBelow t r → NBelow t (.node i b l r)

/-- Forget the ids of a pair. -/
def treePair (p : NTree α K d × NTree α K d) : Tree α K d × Tree α K d := (p.1.tree, p.2.tree)

/-- Both nodes are below `a` and `b`, in one order or the other. -/
def NPair (u v a b : NTree α K d) : Prop := (NBelow u a ∧ NBelow v b) ∨ (NBelow u b ∧ NBelow v a)

variable [Field K] [LinearOrder K]

theorem NBelow.tree {t u : NTree α K d} (h : NBelow t u) : Below t.tree u.tree := by
  induction h with
  | refl => exact .refl _
  | left _ ih => exact .left ih
  | right _ ih => exact .right ih

/-- Both nodes are below `a` and `b`, in one order or the other. -/
def TPair (P : Tree α K d × Tree α K d) (a b : Tree α K d) : Prop :=
  (Below P.1 a ∧ Below P.2 b) ∨ (Below P.1 b ∧ Below P.2 a)

theorem TPair.swap {P : Tree α K d × Tree α K d} {a b : Tree α K d} (h : TPair P a b) : TPair P b a := h.symm
theorem NPair.swap {u v a b : NTree α K d} (h : NPair u v a b) : NPair u v b a := h.symm

theorem TPair.left {P : Tree α K d × Tree α K d} {b l r w} (h : TPair P l w) :
    TPair P (.node b l r) w := by
  rcases h with h | h
  · exact Or.inl ⟨.left h.1, h.2⟩
  · exact Or.inr ⟨h.1, .left h.2⟩
theorem TPair.right {P : Tree α K d × Tree α K d} {b l r w} (h : TPair P r w) :
    TPair P (.node b l r) w := by
  rcases h with h | h
  · exact Or.inl ⟨.right h.1, h.2⟩
  · exact Or.inr ⟨h.1, .right h.2⟩
theorem NPair.left {u v : NTree α K d} {i b l r w} (h : NPair u v l w) :
    NPair u v (.node i b l r) w := by
  rcases h with h | h
  · exact Or.inl ⟨.left h.1, h.2⟩
  · exact Or.inr ⟨h.1, .left h.2⟩
theorem NPair.right {u v : NTree α K d} {i b l r w} (h : NPair u v r w) :
    NPair u v (.node i b l r) w := by
  rcases h with h | h
  · exact Or.inl ⟨.right h.1, h.2⟩
  · exact Or.inr ⟨h.1, .right h.2⟩

theorem bind_append_ok {β : Type} {x y : Except Err (List β)} {out : List β}
    (h : (do return (← x) ++ (← y)) = (.ok out : Except Err (List β))) :
    ∃ o1 o2, x = .ok o1 ∧ y = .ok o2 ∧ out = o1 ++ o2 := by
  cases x with
  | error e => cases h
  | ok a =>
    cases y with
    | error e => cases h
    | ok b => exact ⟨a, b, rfl, rfl, (Except.ok.inj h).symm⟩

theorem findPairSerial_below (ws : Tree α K d → Tree α K d → Bool) (fuel : ℕ) (u v : Tree α K d)
    (out : List (Tree α K d × Tree α K d)) (h : findPairSerial ws fuel u v = .ok out) :
    ∀ P ∈ out, TPair P u v := by
  induction fuel generalizing u v out with
  | zero => cases h
  | succ fuel ih =>
    unfold findPairSerial at h
    split_ifs at h with hws
    · cases h
      intro P hP
      rw [List.mem_singleton] at hP
      subst hP
      exact Or.inl ⟨.refl _, .refl _⟩
    · have split : ∀ (b : Box K d) (l r w : Tree α K d),
          (do return (← findPairSerial ws fuel l w) ++ (← findPairSerial ws fuel r w)) =
            (.ok out : Except Err _) → ∀ P ∈ out, TPair P (.node b l r) w := by
        intro b l r w h P hP
        obtain ⟨o1, o2, h1, h2, rfl⟩ := bind_append_ok h
        rcases List.mem_append.mp hP with hP | hP
        · exact (ih _ _ _ h1 P hP).left
        · exact (ih _ _ _ h2 P hP).right
      cases u with
      | leaf bu iu =>
        cases v with
        | leaf bv iv => cases h
        | node bv vl vr => exact fun P hP => (split bv vl vr _ h P hP).swap
      | node bu ul ur =>
        cases v with
        | leaf bv iv => exact split bu ul ur _ h
        | node bv vl vr =>
          simp only at h
          split_ifs at h
          · exact split bu ul ur _ h
          · exact fun P hP => (split bv vl vr _ h P hP).swap

/-- What a filtered search across `u` and `v` reports, compared with the unfiltered search. -/
def FSpec (cut : NTree α K d → NTree α K d → Prop) (u v : NTree α K d)
    (out0 : List (Tree α K d × Tree α K d)) (res : Except Err (List (NTree α K d × NTree α K d))) : Prop :=
  ∃ out, res = .ok out ∧ (out.map treePair).Sublist out0 ∧
    ∀ P ∈ out0, P ∈ out.map treePair ∨ ∃ u' v', NPair u' v' u v ∧ cut u' v' ∧ TPair P u'.tree v'.tree

theorem FSpec.swap {cut : NTree α K d → NTree α K d → Prop} {u v : NTree α K d}
    {out0 : List (Tree α K d × Tree α K d)} {res} (h : FSpec cut u v out0 res) : FSpec cut v u out0 res := by
  obtain ⟨out, h1, h2, h3⟩ := h
  refine ⟨out, h1, h2, fun P hP => (h3 P hP).imp id ?_⟩
  rintro ⟨u', v', g1, g2, g3⟩
  exact ⟨u', v', g1.swap, g2, g3⟩

theorem FSpec.mono {cut cut' : NTree α K d → NTree α K d → Prop} (hc : ∀ a b, cut a b → cut' a b)
    {u v : NTree α K d} {out0 : List (Tree α K d × Tree α K d)} {res} (h : FSpec cut u v out0 res) :
    FSpec cut' u v out0 res := by
  obtain ⟨out, h1, h2, h3⟩ := h
  refine ⟨out, h1, h2, fun P hP => (h3 P hP).imp id ?_⟩
  rintro ⟨u', v', g1, g2, g3⟩
  exact ⟨u', v', g1, hc _ _ g2, g3⟩

theorem FSpec.node {cut : NTree α K d → NTree α K d → Prop} {i b} {l r w : NTree α K d}
    {o1 o2 : List (Tree α K d × Tree α K d)} {r1 r2} (h1 : FSpec cut l w o1 r1) (h2 : FSpec cut r w o2 r2) :
    FSpec cut (.node i b l r) w (o1 ++ o2) (r1.bind fun a => r2.map fun c => a ++ c) := by
  obtain ⟨p1, rfl, a2, a3⟩ := h1
  obtain ⟨p2, rfl, b2, b3⟩ := h2
  refine ⟨p1 ++ p2, rfl, by rw [List.map_append]; exact a2.append b2, ?_⟩
  intro P hP
  rw [List.map_append, List.mem_append]
  rcases List.mem_append.mp hP with hP | hP
  · rcases a3 P hP with h | ⟨u', v', g1, g2, g3⟩
    · exact Or.inl (Or.inl h)
    · exact Or.inr ⟨u', v', g1.left, g2, g3⟩
  · rcases b3 P hP with h | ⟨u', v', g1, g2, g3⟩
    · exact Or.inl (Or.inr h)
    · exact Or.inr ⟨u', v', g1.right, g2, g3⟩

theorem FSpec.cut {cut : NTree α K d → NTree α K d → Prop} {u v : NTree α K d}
    {out0 : List (Tree α K d × Tree α K d)} (hc : cut u v) (hb : ∀ P ∈ out0, TPair P u.tree v.tree) :
    FSpec cut u v out0 (.ok []) :=
  ⟨[], rfl, by simp, fun P hP => Or.inr ⟨u, v, Or.inl ⟨.refl _, .refl _⟩, hc, hb P hP⟩⟩

theorem FSpec.emit {cut : NTree α K d → NTree α K d → Prop} {u v : NTree α K d} :
    FSpec cut u v [(u.tree, v.tree)] (.ok [(u, v)]) :=
  ⟨[(u, v)], rfl, by simp [treePair], fun P hP => Or.inl (by simpa [treePair] using hP)⟩

theorem findPairSerialF_spec (m : NTree α K d → NTree α K d → Bool) (ws : Tree α K d → Tree α K d → Bool)
    (fuel : ℕ) (u v : NTree α K d) (out0 : List (Tree α K d × Tree α K d))
    (h : findPairSerial ws fuel u.tree v.tree = .ok out0) :
    FSpec (fun a b => m a b = false) u v out0 (findPairSerialF m ws fuel u v) := by
  induction fuel generalizing u v out0 with
  | zero => cases h
  | succ fuel ih =>
    have hbel := findPairSerial_below ws _ _ _ _ h
    unfold findPairSerialF
    by_cases hm : m u v
    · rw [if_neg (by simp [hm])]
      unfold findPairSerial at h
      by_cases hws : ws u.tree v.tree
      · rw [if_pos hws] at h ⊢
        cases h
        exact .emit
      · rw [if_neg hws] at h ⊢
        have split : ∀ i b (l r w : NTree α K d),
            (do return (← findPairSerial ws fuel l.tree w.tree) ++ (← findPairSerial ws fuel r.tree w.tree)) =
              (.ok out0 : Except Err _) →
            FSpec (fun a b => m a b = false) (.node i b l r) w out0
              ((findPairSerialF m ws fuel l w).bind fun o1 => (findPairSerialF m ws fuel r w).map fun o2 =>
                o1 ++ o2) := by
          intro i b l r w h
          obtain ⟨o1, o2, h1, h2, rfl⟩ := bind_append_ok h
          exact (ih _ _ _ h1).node (ih _ _ _ h2)
        cases u with
        | leaf ju bu iu =>
          cases v with
          | leaf jv bv iv => cases h
          | node jv bv vl vr => exact (split jv bv vl vr (.leaf ju bu iu) h).swap
        | node ju bu ul ur =>
          cases v with
          | leaf jv bv iv => exact split ju bu ul ur (.leaf jv bv iv) h
          | node jv bv vl vr =>
            simp only [NTree.tree] at h ⊢
            split_ifs at h ⊢
            · exact split ju bu ul ur (.node jv bv vl vr) h
            · exact (split jv bv vl vr (.node ju bu ul ur) h).swap
    · rw [if_pos (by simp [hm])]
      exact .cut (by simpa using hm) hbel

theorem findPairParallelF_spec (m mS : NTree α K d → NTree α K d → Bool)
    (ws : Tree α K d → Tree α K d → Bool)
    (fuel : ℕ) (u v : NTree α K d) (out0 : List (Tree α K d × Tree α K d))
    (h : findPairSerial ws fuel u.tree v.tree = .ok out0) :
    FSpec (fun a b => m a b = false ∨ mS a b = false) u v out0 (findPairParallelF m mS ws fuel u v) := by
  induction fuel generalizing u v out0 with
  | zero => cases h
  | succ fuel ih =>
    have hbel := findPairSerial_below ws _ _ _ _ h
    unfold findPairParallelF
    by_cases hm : m u v
    · rw [if_neg (by simp [hm])]
      split
      · exact (findPairSerialF_spec mS ws _ u v out0 h).mono fun a b h => Or.inr h
      unfold findPairSerial at h
      by_cases hws : ws u.tree v.tree
      · rw [if_pos hws] at h ⊢
        cases h
        exact .emit
      · rw [if_neg hws] at h ⊢
        have split : ∀ i b (l r w : NTree α K d),
            (do return (← findPairSerial ws fuel l.tree w.tree) ++ (← findPairSerial ws fuel r.tree w.tree)) =
              (.ok out0 : Except Err _) →
            FSpec (fun a b => m a b = false ∨ mS a b = false) (.node i b l r) w out0
              ((findPairParallelF m mS ws fuel l w).bind fun o1 =>
                (findPairParallelF m mS ws fuel r w).map fun o2 => o1 ++ o2) := by
          intro i b l r w h
          obtain ⟨o1, o2, h1, h2, rfl⟩ := bind_append_ok h
          exact (ih _ _ _ h1).node (ih _ _ _ h2)
        cases u with
        | leaf ju bu iu =>
          cases v with
          | leaf jv bv iv => cases h
          | node jv bv vl vr => exact (split jv bv vl vr (.leaf ju bu iu) h).swap
        | node ju bu ul ur =>
          cases v with
          | leaf jv bv iv => exact split ju bu ul ur (.leaf jv bv iv) h
          | node jv bv vl vr =>
            simp only [NTree.tree] at h ⊢
            split_ifs at h ⊢
            · exact split ju bu ul ur (.node jv bv vl vr) h
            · exact (split jv bv vl vr (.node ju bu ul ur) h).swap
    · rw [if_pos (by simp [hm])]
      exact .cut (Or.inl (by simpa using hm)) hbel

/-- What a filtered traversal reports, compared with the whole decomposition. -/
def WSpec (start : NTree α K d → Bool) (cut : NTree α K d → NTree α K d → Prop) (t : NTree α K d)
    (out0 : List (Tree α K d × Tree α K d)) (res : Except Err (List (NTree α K d × NTree α K d))) : Prop :=
  ∃ out, res = .ok out ∧ (out.map treePair).Sublist out0 ∧
    ∀ P ∈ out0, P ∈ out.map treePair ∨
      (∃ u' v', NBelow u' t ∧ NBelow v' t ∧ cut u' v' ∧ TPair P u'.tree v'.tree) ∨
      ∃ t', NBelow t' t ∧ start t' = false ∧ ∃ b l r, t'.tree = .node b l r ∧
        ((Below P.1 l ∧ Below P.2 r) ∨ (Below P.1 r ∧ Below P.2 l) ∨
          (Below P.1 l ∧ Below P.2 l) ∨ (Below P.1 r ∧ Below P.2 r))

theorem WSpec.mono {start : NTree α K d → Bool} {cut cut' : NTree α K d → NTree α K d → Prop}
    (hc : ∀ a b, cut a b → cut' a b) {t : NTree α K d} {out0 : List (Tree α K d × Tree α K d)} {res}
    (h : WSpec start cut t out0 res) : WSpec start cut' t out0 res := by
  obtain ⟨out, h1, h2, h3⟩ := h
  refine ⟨out, h1, h2, fun P hP => (h3 P hP).imp id (Or.imp ?_ id)⟩
  rintro ⟨u', v', g1, g2, g3, g4⟩
  exact ⟨u', v', g1, g2, hc _ _ g3, g4⟩

theorem bind_append3_ok {β : Type} {x y z : Except Err (List β)} {out : List β}
    (h : (do return (← x) ++ (← y) ++ (← z)) = (.ok out : Except Err (List β))) :
    ∃ o1 o2 o3, x = .ok o1 ∧ y = .ok o2 ∧ z = .ok o3 ∧ out = o1 ++ o2 ++ o3 := by
  cases x with
  | error e => cases h
  | ok a =>
    cases y with
    | error e => cases h
    | ok b =>
      cases z with
      | error e => cases h
      | ok c => exact ⟨a, b, c, rfl, rfl, rfl, (Except.ok.inj h).symm⟩

theorem wspdSerial_below (ws : Tree α K d → Tree α K d → Bool) (t : Tree α K d)
    (out : List (Tree α K d × Tree α K d)) (h : wspdSerial ws t = .ok out) :
    ∀ P ∈ out, Below P.1 t ∧ Below P.2 t := by
  induction t generalizing out with
  | leaf b items => cases h; simp
  | node b l r ihl ihr =>
    unfold wspdSerial at h
    obtain ⟨o1, o2, o3, h1, h2, h3, rfl⟩ := bind_append3_ok h
    intro P hP
    simp only [List.mem_append] at hP
    rcases hP with (hP | hP) | hP
    · exact ⟨.left (ihl _ h1 P hP).1, .left (ihl _ h1 P hP).2⟩
    · exact ⟨.right (ihr _ h2 P hP).1, .right (ihr _ h2 P hP).2⟩
    · rcases findPairSerial_below ws _ _ _ _ h3 P hP with h | h
      · exact ⟨.left h.1, .right h.2⟩
      · exact ⟨.right h.1, .left h.2⟩

theorem WSpec.node {start : NTree α K d → Bool} {cut : NTree α K d → NTree α K d → Prop} {i b}
    {l r : NTree α K d} {o1 o2 o3 : List (Tree α K d × Tree α K d)} {r1 r2 r3}
    (h1 : WSpec start cut l o1 r1) (h2 : WSpec start cut r o2 r2) (h3 : FSpec cut l r o3 r3) :
    WSpec start cut (.node i b l r) (o1 ++ o2 ++ o3)
      (r1.bind fun a => r2.bind fun c => r3.map fun e => a ++ c ++ e) := by
  obtain ⟨p1, rfl, a2, a3⟩ := h1
  obtain ⟨p2, rfl, b2, b3⟩ := h2
  obtain ⟨p3, rfl, c2, c3⟩ := h3
  refine ⟨p1 ++ p2 ++ p3, rfl, by simp only [List.map_append]; exact (a2.append b2).append c2, ?_⟩
  intro P hP
  simp only [List.map_append, List.mem_append]
  simp only [List.mem_append] at hP
  rcases hP with (hP | hP) | hP
  · rcases a3 P hP with h | ⟨u', v', g1, g2, g3, g4⟩ | ⟨t', g1, g2⟩
    · exact Or.inl (Or.inl (Or.inl h))
    · exact Or.inr (Or.inl ⟨u', v', .left g1, .left g2, g3, g4⟩)
    · exact Or.inr (Or.inr ⟨t', .left g1, g2⟩)
  · rcases b3 P hP with h | ⟨u', v', g1, g2, g3, g4⟩ | ⟨t', g1, g2⟩
    · exact Or.inl (Or.inl (Or.inr h))
    · exact Or.inr (Or.inl ⟨u', v', .right g1, .right g2, g3, g4⟩)
    · exact Or.inr (Or.inr ⟨t', .right g1, g2⟩)
  · rcases c3 P hP with h | ⟨u', v', g1, g3, g4⟩
    · exact Or.inl (Or.inr h)
    · rcases g1 with ⟨g1, g2⟩ | ⟨g1, g2⟩
      · exact Or.inr (Or.inl ⟨u', v', .left g1, .right g2, g3, g4⟩)
      · exact Or.inr (Or.inl ⟨u', v', .right g1, .left g2, g3, g4⟩)

theorem WSpec.start {start : NTree α K d → Bool} {cut : NTree α K d → NTree α K d → Prop} {i b}
    {l r : NTree α K d} {o1 o2 o3 : List (Tree α K d × Tree α K d)}
    (hs : start (.node i b l r) = false) (h1 : ∀ P ∈ o1, Below P.1 l.tree ∧ Below P.2 l.tree)
    (h2 : ∀ P ∈ o2, Below P.1 r.tree ∧ Below P.2 r.tree) (h3 : ∀ P ∈ o3, TPair P l.tree r.tree) :
    WSpec start cut (.node i b l r) (o1 ++ o2 ++ o3) (.ok []) := by
  refine ⟨[], rfl, by simp, ?_⟩
  intro P hP
  refine Or.inr (Or.inr ⟨_, .refl _, hs, b, l.tree, r.tree, rfl, ?_⟩)
  simp only [List.mem_append] at hP
  rcases hP with (hP | hP) | hP
  · exact Or.inr (Or.inr (Or.inl (h1 P hP)))
  · exact Or.inr (Or.inr (Or.inr (h2 P hP)))
  · rcases h3 P hP with h | h
    · exact Or.inl h
    · exact Or.inr (Or.inl h)

theorem wspdSerialF_spec (start : NTree α K d → Bool) (m : NTree α K d → NTree α K d → Bool)
    (ws : Tree α K d → Tree α K d → Bool) (t : NTree α K d) (out0 : List (Tree α K d × Tree α K d))
    (h : wspdSerial ws t.tree = .ok out0) :
    WSpec start (fun a b => m a b = false) t out0 (wspdSerialF start m ws t) := by
  induction t generalizing out0 with
  | leaf i b items => cases h; exact ⟨[], rfl, by simp, by simp⟩
  | node i b l r ihl ihr =>
    simp only [NTree.tree, wspdSerial] at h
    obtain ⟨o1, o2, o3, h1, h2, h3, rfl⟩ := bind_append3_ok h
    unfold wspdSerialF
    split
    · exact (ihl _ h1).node (ihr _ h2) (findPairSerialF_spec m ws _ l r _ h3)
    · rename_i hs
      exact .start (by simpa using hs) (wspdSerial_below ws _ _ h1) (wspdSerial_below ws _ _ h2)
        (findPairSerial_below ws _ _ _ _ h3)

theorem wspdParallelF_spec (start : NTree α K d → Bool) (m mS : NTree α K d → NTree α K d → Bool)
    (ws : Tree α K d → Tree α K d → Bool) (t : NTree α K d) (out0 : List (Tree α K d × Tree α K d))
    (h : wspdSerial ws t.tree = .ok out0) :
    WSpec start (fun a b => m a b = false ∨ mS a b = false) t out0 (wspdParallelF start m mS ws t) := by
  induction t generalizing out0 with
  | leaf i b items =>
    unfold wspdParallelF
    cases h
    split <;> exact ⟨[], rfl, by simp, by simp⟩
  | node i b l r ihl ihr =>
    unfold wspdParallelF
    split
    · exact (wspdSerialF_spec start mS ws _ _ h).mono fun a b h => Or.inr h
    simp only [NTree.tree, wspdSerial] at h
    obtain ⟨o1, o2, o3, h1, h2, h3, rfl⟩ := bind_append3_ok h
    split
    · exact (ihl _ h1).node (ihr _ h2) (findPairParallelF_spec m mS ws _ l r _ h3)
    · rename_i hs
      exact .start (by simpa using hs) (wspdSerial_below ws _ _ h1) (wspdSerial_below ws _ _ h2)
        (findPairSerial_below ws _ _ _ _ h3)

end Verif.Emst
