import Verif.KdTree.BccpFloatModel
import Verif.KdTree.FloatLemmas
import Verif.KdTree.BccpLemmas

set_option linter.unusedSectionVars false
set_option linter.unusedVariables false

/-!
Lemmas on the bichromatic closest pair in rounded arithmetic.
-/

namespace Verif.KdTree

open Verif.Float

variable {α : Type} {d : ℕ} {fl : ℝ → ℝ}

section
variable (hf : IsMonoRounding fl)
include hf

theorem gapFl_nonneg (b1 b2 : Box ℝ d) (i : Fin d) : 0 ≤ gapFl fl b1 b2 i := le_max_right _ _

theorem gapFl_le {b1 b2 : Box ℝ d} {p q : Point ℝ d} (hp : b1.Mem p) (hq : b2.Mem q) (i : Fin d) :
    gapFl fl b1 b2 i ≤ |fl (p i - q i)| := by
  unfold gapFl
  apply max_le _ (abs_nonneg _)
  apply max_le
  · exact le_trans (hf.mono (by linarith [(hp i).1, (hq i).2])) (le_abs_self _)
  · rw [← abs_neg, ← hf.odd]
    exact le_trans (hf.mono (by linarith [(hp i).2, (hq i).1])) (le_abs_self _)

theorem gapFl_sq_le {b1 b2 : Box ℝ d} {p q : Point ℝ d} (hp : b1.Mem p) (hq : b2.Mem q)
    (i : Fin d) : fl (gapFl fl b1 b2 i * gapFl fl b1 b2 i)
      ≤ fl (fl (p i - q i) * fl (p i - q i)) := by
  apply hf.mono
  rw [← abs_mul_abs_self (fl (p i - q i))]
  exact mul_self_le_mul_self (gapFl_nonneg hf _ _ _) (gapFl_le hf hp hq i)

theorem fold_nonneg (p q : Point ℝ d) (l : List (Fin d)) (y : ℝ) (h : 0 ≤ y) :
    0 ≤ l.foldl (addSqFl fl p q) y := by
  induction l generalizing y with
  | nil => exact h
  | cons a l ih =>
    refine ih _ (hf.nonneg (add_nonneg h (hf.nonneg (mul_self_nonneg _))))

theorem gap_fold_le {b1 b2 : Box ℝ d} {p q : Point ℝ d} (hp : b1.Mem p) (hq : b2.Mem q)
    (l : List (Fin d)) (x y : ℝ) (h : x ≤ y) :
    l.foldl (addGapFl fl b1 b2) x ≤ l.foldl (addSqFl fl p q) y := by
  induction l generalizing x y with
  | nil => exact h
  | cons a l ih =>
    have g := gapFl_sq_le hf hp hq a
    rw [List.foldl_cons, List.foldl_cons]
    exact ih _ _ (hf.mono (by linarith))

/-- Leaving out the first dimensions only makes the sum smaller. -/
theorem gap_filter_le {b1 b2 : Box ℝ d} {p q : Point ℝ d} (hp : b1.Mem p) (hq : b2.Mem q)
    (P : Fin d → Bool) (l : List (Fin d)) (hl : l.Pairwise fun a b => P a → P b) (y : ℝ)
    (h : 0 ≤ y) :
    (l.filter P).foldl (addGapFl fl b1 b2) 0 ≤ l.foldl (addSqFl fl p q) y := by
  induction l generalizing y with
  | nil => exact h
  | cons a l ih =>
    rw [List.pairwise_cons] at hl
    by_cases hP : P a
    · rw [List.filter_eq_self.mpr]
      · exact gap_fold_le hf hp hq _ _ _ h
      · intro b hb
        rcases List.mem_cons.mp hb with rfl | hb
        · exact hP
        · exact hl.1 b hb hP
    · rw [List.filter_cons_of_neg hP, List.foldl_cons]
      exact ih hl.2 _ (hf.nonneg (add_nonneg h (hf.nonneg (mul_self_nonneg _))))

/-- The computed node distance is a lower bound for the computed distance of any two points in the
boxes. -/
theorem nodeDistFl_le {b1 b2 : Box ℝ d} {p q : Point ℝ d} (hp : b1.Mem p) (hq : b2.Mem q) :
    nodeDistFl fl b1 b2 ≤ distFl fl p q := by
  unfold nodeDistFl
  split
  · exact hf.nonneg (Real.sqrt_nonneg _)
  · unfold distFl distSqrFl
    apply hf.mono
    apply Real.sqrt_le_sqrt
    refine gap_filter_le hf hp hq _ _ ?_ _ (le_refl _)
    refine (List.pairwise_lt_finRange d).imp ?_
    intro a b hab ha
    rw [decide_eq_true_iff] at ha ⊢
    exact ha.trans hab.le

end

/-- Result of scanning the pairs `L`, starting from `r`. -/
structure ScannedFl (fl : ℝ → ℝ) (pos : α → Point ℝ d) (L : α → α → Prop) (r r' : Bcp α ℝ) : Prop where
  src : r' = r ∨ ∃ x y, L x y ∧ r' = some (x, y, distFl fl (pos x) (pos y))
  old : ∀ u v c, r = some (u, v, c) → ∃ u' v' c', r' = some (u', v', c') ∧ c' ≤ c
  all : ∀ x y, L x y → ∃ u' v' c', r' = some (u', v', c') ∧ c' ≤ distFl fl (pos x) (pos y)

theorem ScannedFl.trans {pos : α → Point ℝ d} {L1 L2 L : α → α → Prop} {r r' r'' : Bcp α ℝ}
    (h1 : ScannedFl fl pos L1 r r') (h2 : ScannedFl fl pos L2 r' r'') (hL : ∀ x y, L x y ↔ L1 x y ∨ L2 x y) :
    ScannedFl fl pos L r r'' := by
  refine ⟨?_, ?_, ?_⟩
  · rcases h2.src with h | ⟨x, y, h, h'⟩
    · rw [h]
      rcases h1.src with h | ⟨x, y, h, h'⟩
      · exact Or.inl h
      · exact Or.inr ⟨x, y, (hL x y).mpr (Or.inl h), h'⟩
    · exact Or.inr ⟨x, y, (hL x y).mpr (Or.inr h), h'⟩
  · intro u v c h
    obtain ⟨u1, v1, c1, h3, h4⟩ := h1.old u v c h
    obtain ⟨u2, v2, c2, h5, h6⟩ := h2.old u1 v1 c1 h3
    exact ⟨u2, v2, c2, h5, h6.trans h4⟩
  · intro x y h
    rcases (hL x y).mp h with h | h
    · obtain ⟨u1, v1, c1, h3, h4⟩ := h1.all x y h
      obtain ⟨u2, v2, c2, h5, h6⟩ := h2.old u1 v1 c1 h3
      exact ⟨u2, v2, c2, h5, h6.trans h4⟩
    · exact h2.all x y h

theorem ScannedFl.refl (fl : ℝ → ℝ) (pos : α → Point ℝ d) (r : Bcp α ℝ) :
    ScannedFl fl pos (fun _ _ => False) r r :=
  ⟨Or.inl rfl, fun u v c h => ⟨u, v, c, h, le_refl _⟩, fun _ _ h => h.elim⟩

theorem update_scannedFl (pos : α → Point ℝ d) (r : Bcp α ℝ) (x y : α) :
    ScannedFl fl pos (fun x' y' => x' = x ∧ y' = y) r (r.update x y (distFl fl (pos x) (pos y))) := by
  unfold Bcp.update
  split
  · refine ⟨Or.inr ⟨x, y, ⟨rfl, rfl⟩, rfl⟩, by simp, ?_⟩
    rintro _ _ ⟨rfl, rfl⟩
    exact ⟨_, _, _, rfl, le_refl _⟩
  · rename_i u' v' c'
    split
    · rename_i h
      refine ⟨Or.inr ⟨x, y, ⟨rfl, rfl⟩, rfl⟩, ?_, ?_⟩
      · intro u v c hc
        simp only [Option.some.injEq, Prod.mk.injEq] at hc
        obtain ⟨-, -, rfl⟩ := hc
        exact ⟨_, _, _, rfl, h.le⟩
      · rintro _ _ ⟨rfl, rfl⟩
        exact ⟨_, _, _, rfl, le_refl _⟩
    · rename_i h
      refine ⟨Or.inl rfl, ?_, ?_⟩
      · intro u v c hc
        exact ⟨u, v, c, hc, le_refl _⟩
      · rintro _ _ ⟨rfl, rfl⟩
        exact ⟨_, _, _, rfl, not_lt.mp h⟩

theorem bcpLoop_scannedFl (pos : α → Point ℝ d) (l1 l2 : List α) (r : Bcp α ℝ) :
    ScannedFl fl pos (fun x y => x ∈ l1 ∧ y ∈ l2) r (bcpLoopFl fl pos l1 l2 r) := by
  have inner : ∀ (x : α) (l2 : List α) (r : Bcp α ℝ),
      ScannedFl fl pos (fun x' y => x' = x ∧ y ∈ l2) r
        (l2.foldl (fun r y => r.update x y (distFl fl (pos x) (pos y))) r) := by
    intro x l2
    induction l2 with
    | nil =>
      intro r
      have := ScannedFl.refl fl pos r
      simpa using this
    | cons y l2 ih =>
      intro r
      refine (update_scannedFl pos r x y).trans (ih _) ?_
      intro x' y'
      simp only [List.mem_cons]
      tauto
  unfold bcpLoopFl
  induction l1 generalizing r with
  | nil =>
    have := ScannedFl.refl fl pos r
    simpa using this
  | cons x l1 ih =>
    refine (inner x l2 r).trans (ih _) ?_
    intro x' y'
    simp only [List.mem_cons]
    tauto

theorem foldlM_scannedFl {ι : Type} (pos : α → Point ℝ d) (f : Bcp α ℝ → ι → Except Err (Bcp α ℝ))
    (L : ι → α → α → Prop) (l : List ι)
    (h : ∀ i ∈ l, ∀ r, ∃ r', f r i = .ok r' ∧ ScannedFl fl pos (L i) r r') (r : Bcp α ℝ) :
    ∃ r', l.foldlM f r = .ok r' ∧ ScannedFl fl pos (fun x y => ∃ i ∈ l, L i x y) r r' := by
  induction l generalizing r with
  | nil =>
    refine ⟨r, rfl, ?_⟩
    have := ScannedFl.refl fl pos r
    simpa using this
  | cons i l ih =>
    obtain ⟨r1, h1, h2⟩ := h i (by simp) r
    obtain ⟨r2, h3, h4⟩ := ih (fun j hj => h j (by simp [hj])) r1
    refine ⟨r2, ?_, h2.trans h4 ?_⟩
    · rw [List.foldlM_cons, h1]
      exact h3
    · intro x y
      simp

theorem bcpChildren_memFl (t1 t2 : Tree α ℝ d) (hne : ¬ (∃ b i, t1 = .leaf b i) ∨ ¬ ∃ b i, t2 = .leaf b i)
    (x y : α) :
    (∃ p ∈ bcpChildrenFl fl t1 t2, x ∈ p.1.items ∧ y ∈ p.2.items) ↔ x ∈ t1.items ∧ y ∈ t2.items := by
  cases t1 with
  | leaf b1 i1 =>
    cases t2 with
    | leaf b2 i2 => simp at hne
    | node b2 l r =>
      simp only [bcpChildrenFl]
      split_ifs <;> simp [Tree.items] <;> tauto
  | node b1 l1 r1 =>
    cases t2 with
    | leaf b2 i2 =>
      simp only [bcpChildrenFl]
      split_ifs <;> simp [Tree.items] <;> tauto
    | node b2 l r =>
      unfold bcpChildrenFl
      simp [Tree.items]
      tauto

theorem bcpChildren_heightFl (pos : α → Point ℝ d) (t1 t2 : Tree α ℝ d)
    (h1 : BoxesOk pos t1) (h2 : BoxesOk pos t2) : ∀ p ∈ bcpChildrenFl fl t1 t2,
    p.1.height + p.2.height < t1.height + t2.height ∧ BoxesOk pos p.1 ∧ BoxesOk pos p.2 := by
  intro p hp
  cases t1 with
  | leaf b1 i1 =>
    cases t2 with
    | leaf b2 i2 => simp [bcpChildrenFl] at hp
    | node b2 l r =>
      have ha := h2.2.1
      have hb := h2.2.2
      simp only [bcpChildrenFl] at hp
      split_ifs at hp <;> simp at hp <;> rcases hp with rfl | rfl <;>
        exact ⟨by simp only [Tree.height]; omega, h1, by assumption⟩
  | node b1 l1 r1 =>
    have hc := h1.2.1
    have hd := h1.2.2
    cases t2 with
    | leaf b2 i2 =>
      simp only [bcpChildrenFl] at hp
      split_ifs at hp <;> simp at hp <;> rcases hp with rfl | rfl <;>
        exact ⟨by simp only [Tree.height]; omega, by assumption, h2⟩
    | node b2 l r =>
      have ha := h2.2.1
      have hb := h2.2.2
      simp [bcpChildrenFl] at hp
      rcases hp with rfl | rfl | rfl | rfl <;>
        exact ⟨by simp only [Tree.height]; omega, by assumption, by assumption⟩

theorem bcpHelper_okFl (hf : IsMonoRounding fl) (pos : α → Point ℝ d)
    (ord : List (Tree α ℝ d × Tree α ℝ d) → List (Tree α ℝ d × Tree α ℝ d))
    (hord : ∀ l, (ord l).Perm l) (fuel : ℕ) (t1 t2 : Tree α ℝ d) (h1 : BoxesOk pos t1)
    (h2 : BoxesOk pos t2) (hfu : t1.height + t2.height < fuel) (r : Bcp α ℝ) :
    ∃ r', bcpHelperFl fl pos ord fuel t1 t2 r = .ok r' ∧
      ScannedFl fl pos (fun x y => x ∈ t1.items ∧ y ∈ t2.items) r r' := by
  induction fuel generalizing t1 t2 r with
  | zero => omega
  | succ fuel ih =>
    unfold bcpHelperFl
    by_cases hp : bcpPruneFl fl t1.box t2.box r
    · rw [if_pos hp]
      refine ⟨r, rfl, Or.inl rfl, fun u v c h => ⟨u, v, c, h, le_refl _⟩, ?_⟩
      rintro x y ⟨hx, hy⟩
      cases r with
      | none => simp [bcpPruneFl] at hp
      | some r =>
        obtain ⟨u, v, c⟩ := r
        refine ⟨u, v, c, rfl, ?_⟩
        simp only [bcpPruneFl, decide_eq_true_eq] at hp
        exact hp.le.trans (nodeDistFl_le hf (h1.mem_box x hx) (h2.mem_box y hy))
    · rw [if_neg hp]
      have hrec : (¬ (∃ b i, t1 = .leaf b i) ∨ ¬ ∃ b i, t2 = .leaf b i) →
          ∃ r', (ord (bcpChildrenFl fl t1 t2)).foldlM
            (fun r p => bcpHelperFl fl pos ord fuel p.1 p.2 r) r = .ok r' ∧
          ScannedFl fl pos (fun x y => x ∈ t1.items ∧ y ∈ t2.items) r r' := by
        intro hne
        obtain ⟨r', h3, h4⟩ := foldlM_scannedFl pos (fun r p => bcpHelperFl fl pos ord fuel p.1 p.2 r)
          (fun p x y => x ∈ p.1.items ∧ y ∈ p.2.items) (ord (bcpChildrenFl fl t1 t2)) (by
            intro p hp r
            have := bcpChildren_heightFl pos t1 t2 h1 h2 p ((hord _).mem_iff.mp hp)
            exact ih p.1 p.2 this.2.1 this.2.2 (by omega) r) r
        refine ⟨r', h3, ?_⟩
        have hiff : (fun x y => ∃ p ∈ ord (bcpChildrenFl fl t1 t2), x ∈ p.1.items ∧ y ∈ p.2.items) =
            fun x y => x ∈ t1.items ∧ y ∈ t2.items := by
          funext x y
          rw [← bcpChildren_memFl (fl := fl) t1 t2 hne x y]
          simp only [(hord _).mem_iff]
        rw [hiff] at h4
        exact h4
      cases t1 with
      | leaf b1 i1 =>
        cases t2 with
        | leaf b2 i2 => exact ⟨_, rfl, bcpLoop_scannedFl pos i1 i2 r⟩
        | node b2 l r => exact hrec (Or.inr (by simp))
      | node b1 l1 r1 => exact hrec (Or.inl (by simp))

end Verif.KdTree
