import Verif.KdTree.BccpModel
import Verif.KdTree.BuildProps
import Verif.KdTree.RangeProps
import Mathlib.Algebra.BigOperators.Group.List.Basic
import Mathlib.Algebra.Order.BigOperators.Group.List

set_option linter.unusedSectionVars false
set_option linter.unusedVariables false

namespace Verif.KdTree

variable {α K : Type} {d : ℕ} [Field K] [LinearOrder K] [IsStrictOrderedRing K]

theorem gap_nonneg (b1 b2 : Box K d) (i : Fin d) : 0 ≤ gap b1 b2 i := le_max_right _ _

theorem gap_le {b1 b2 : Box K d} {p q : Point K d} (hp : b1.Mem p) (hq : b2.Mem q) (i : Fin d) :
    gap b1 b2 i ≤ |p i - q i| := by
  unfold gap
  apply max_le _ (abs_nonneg _)
  apply max_le
  · exact le_trans (by linarith [(hp i).1, (hq i).2]) (le_abs_self _)
  · rw [abs_sub_comm]
    exact le_trans (by linarith [(hp i).2, (hq i).1]) (le_abs_self _)

theorem gap_sq_le {b1 b2 : Box K d} {p q : Point K d} (hp : b1.Mem p) (hq : b2.Mem q) (i : Fin d) :
    gap b1 b2 i * gap b1 b2 i ≤ (p i - q i) * (p i - q i) := by
  rw [← abs_mul_abs_self (p i - q i)]
  exact mul_self_le_mul_self (gap_nonneg _ _ _) (gap_le hp hq i)

/-- The node distance is a lower bound for the distance of any two points in the boxes. -/
theorem nodeDistSqr_le {b1 b2 : Box K d} {p q : Point K d} (hp : b1.Mem p) (hq : b2.Mem q) :
    nodeDistSqr b1 b2 ≤ distSqr p q := by
  unfold nodeDistSqr
  split
  · exact distSqr_nonneg _ _
  · rename_i i _
    unfold distSqr
    rw [← List.sum_ofFn, List.ofFn_eq_map]
    calc _ ≤ (((List.finRange d).filter fun j => i ≤ j).map
          fun j => (p j - q j) * (p j - q j)).sum :=
        List.sum_le_sum fun j _ => gap_sq_le hp hq j
      _ ≤ _ := by
        apply List.Sublist.sum_le_sum
        · exact (List.filter_sublist).map _
        · intro x hx
          rw [List.mem_map] at hx
          obtain ⟨j, _, rfl⟩ := hx
          exact mul_self_nonneg _

theorem nodeDistSqr_nonneg (b1 b2 : Box K d) : 0 ≤ nodeDistSqr b1 b2 := by
  unfold nodeDistSqr
  split
  · exact le_refl _
  · apply List.sum_nonneg
    intro x hx
    rw [List.mem_map] at hx
    obtain ⟨j, _, rfl⟩ := hx
    exact mul_self_nonneg _

theorem nodeFarDistSqr_ge {b1 b2 : Box K d} {p q : Point K d} (hp : b1.Mem p) (hq : b2.Mem q) :
    distSqr p q ≤ nodeFarDistSqr b1 b2 := by
  unfold nodeFarDistSqr distSqr
  apply Finset.sum_le_sum
  intro i _
  have h1 : |p i - q i| ≤ max (b1.hi i) (b2.hi i) - min (b1.lo i) (b2.lo i) := by
    rw [abs_le]
    have a1 := le_max_left (b1.hi i) (b2.hi i)
    have a2 := le_max_right (b1.hi i) (b2.hi i)
    have a3 := min_le_left (b1.lo i) (b2.lo i)
    have a4 := min_le_right (b1.lo i) (b2.lo i)
    constructor <;> linarith [(hp i).1, (hp i).2, (hq i).1, (hq i).2]
  rw [← abs_mul_abs_self (p i - q i)]
  exact mul_self_le_mul_self (abs_nonneg _) h1

/-- Result of scanning the pairs `L`, starting from `r`. -/
structure Scanned (pos : α → Point K d) (L : α → α → Prop) (r r' : Bcp α K) : Prop where
  src : r' = r ∨ ∃ x y, L x y ∧ r' = some (x, y, distSqr (pos x) (pos y))
  old : ∀ u v c, r = some (u, v, c) → ∃ u' v' c', r' = some (u', v', c') ∧ c' ≤ c
  all : ∀ x y, L x y → ∃ u' v' c', r' = some (u', v', c') ∧ c' ≤ distSqr (pos x) (pos y)

theorem Scanned.trans {pos : α → Point K d} {L1 L2 L : α → α → Prop} {r r' r'' : Bcp α K}
    (h1 : Scanned pos L1 r r') (h2 : Scanned pos L2 r' r'') (hL : ∀ x y, L x y ↔ L1 x y ∨ L2 x y) :
    Scanned pos L r r'' := by
  refine ⟨?_, ?_, ?_⟩
  · rcases h2.src with h | ⟨x, y, h, h'⟩
    · rw [h]
      rcases h1.src with h | ⟨x, y, h, h'⟩
      · exact Or.inl h
      · exact Or.inr ⟨x, y, (hL x y).mpr (Or.inl h), h'⟩
    · exact Or.inr ⟨x, y, (hL x y).mpr (Or.inr h), h'⟩
  · intro u v c h
    obtain ⟨u1, v1, c1, h3, h4⟩ := h1.old u v c h
    obtain ⟨u2, v2, c2, h5, h6⟩ := h2.old u1 v1 c1 h3
    exact ⟨u2, v2, c2, h5, h6.trans h4⟩
  · intro x y h
    rcases (hL x y).mp h with h | h
    · obtain ⟨u1, v1, c1, h3, h4⟩ := h1.all x y h
      obtain ⟨u2, v2, c2, h5, h6⟩ := h2.old u1 v1 c1 h3
      exact ⟨u2, v2, c2, h5, h6.trans h4⟩
    · exact h2.all x y h

theorem Scanned.refl (pos : α → Point K d) (r : Bcp α K) :
    Scanned pos (fun _ _ => False) r r :=
  ⟨Or.inl rfl, fun u v c h => ⟨u, v, c, h, le_refl _⟩, fun _ _ h => h.elim⟩

theorem update_scanned (pos : α → Point K d) (r : Bcp α K) (x y : α) :
    Scanned pos (fun x' y' => x' = x ∧ y' = y) r (r.update x y (distSqr (pos x) (pos y))) := by
  unfold Bcp.update
  split
  · refine ⟨Or.inr ⟨x, y, ⟨rfl, rfl⟩, rfl⟩, by simp, ?_⟩
    rintro _ _ ⟨rfl, rfl⟩
    exact ⟨_, _, _, rfl, le_refl _⟩
  · rename_i u' v' c'
    split
    · rename_i h
      refine ⟨Or.inr ⟨x, y, ⟨rfl, rfl⟩, rfl⟩, ?_, ?_⟩
      · intro u v c hc
        simp only [Option.some.injEq, Prod.mk.injEq] at hc
        obtain ⟨-, -, rfl⟩ := hc
        exact ⟨_, _, _, rfl, h.le⟩
      · rintro _ _ ⟨rfl, rfl⟩
        exact ⟨_, _, _, rfl, le_refl _⟩
    · rename_i h
      refine ⟨Or.inl rfl, ?_, ?_⟩
      · intro u v c hc
        exact ⟨u, v, c, hc, le_refl _⟩
      · rintro _ _ ⟨rfl, rfl⟩
        exact ⟨_, _, _, rfl, not_lt.mp h⟩

theorem bcpLoop_scanned (pos : α → Point K d) (l1 l2 : List α) (r : Bcp α K) :
    Scanned pos (fun x y => x ∈ l1 ∧ y ∈ l2) r (bcpLoop pos l1 l2 r) := by
  have inner : ∀ (x : α) (l2 : List α) (r : Bcp α K),
      Scanned pos (fun x' y => x' = x ∧ y ∈ l2) r
        (l2.foldl (fun r y => r.update x y (distSqr (pos x) (pos y))) r) := by
    intro x l2
    induction l2 with
    | nil =>
      intro r
      have := Scanned.refl pos r
      simpa using this
    | cons y l2 ih =>
      intro r
      refine (update_scanned pos r x y).trans (ih _) ?_
      intro x' y'
      simp only [List.mem_cons]
      tauto
  unfold bcpLoop
  induction l1 generalizing r with
  | nil =>
    have := Scanned.refl pos r
    simpa using this
  | cons x l1 ih =>
    refine (inner x l2 r).trans (ih _) ?_
    intro x' y'
    simp only [List.mem_cons]
    tauto

theorem foldlM_scanned {ι : Type} (pos : α → Point K d) (f : Bcp α K → ι → Except Err (Bcp α K))
    (L : ι → α → α → Prop) (l : List ι)
    (h : ∀ i ∈ l, ∀ r, ∃ r', f r i = .ok r' ∧ Scanned pos (L i) r r') (r : Bcp α K) :
    ∃ r', l.foldlM f r = .ok r' ∧ Scanned pos (fun x y => ∃ i ∈ l, L i x y) r r' := by
  induction l generalizing r with
  | nil =>
    refine ⟨r, rfl, ?_⟩
    have := Scanned.refl pos r
    simpa using this
  | cons i l ih =>
    obtain ⟨r1, h1, h2⟩ := h i (by simp) r
    obtain ⟨r2, h3, h4⟩ := ih (fun j hj => h j (by simp [hj])) r1
    refine ⟨r2, ?_, h2.trans h4 ?_⟩
    · rw [List.foldlM_cons, h1]
      exact h3
    · intro x y
      simp

/-- Every item of every node is in the box of the node. -/
def BoxesOk (pos : α → Point K d) : Tree α K d → Prop
  | .leaf b items => ∀ x ∈ items, b.Mem (pos x)
  | .node b l r => (∀ x ∈ l.items ++ r.items, b.Mem (pos x)) ∧ BoxesOk pos l ∧ BoxesOk pos r

theorem Sound.boxesOk {pos : α → Point K d} {leafSize : ℕ} {t : Tree α K d}
    (h : Sound pos leafSize t) : BoxesOk pos t := by
  induction t with
  | leaf b items => exact h.mem_box
  | node b l r ihl ihr => exact ⟨h.mem_box, ihl h.2.2.1, ihr h.2.2.2⟩

theorem BoxesOk.mem_box {pos : α → Point K d} {t : Tree α K d} (h : BoxesOk pos t) :
    ∀ x ∈ t.items, t.box.Mem (pos x) := by
  cases t with
  | leaf b items => exact h
  | node b l r => exact h.1

theorem bcpChildren_mem (t1 t2 : Tree α K d) (hne : ¬ (∃ b i, t1 = .leaf b i) ∨ ¬ ∃ b i, t2 = .leaf b i)
    (x y : α) :
    (∃ p ∈ bcpChildren t1 t2, x ∈ p.1.items ∧ y ∈ p.2.items) ↔ x ∈ t1.items ∧ y ∈ t2.items := by
  cases t1 with
  | leaf b1 i1 =>
    cases t2 with
    | leaf b2 i2 => simp at hne
    | node b2 l r =>
      simp only [bcpChildren]
      split_ifs <;> simp [Tree.items] <;> tauto
  | node b1 l1 r1 =>
    cases t2 with
    | leaf b2 i2 =>
      simp only [bcpChildren]
      split_ifs <;> simp [Tree.items] <;> tauto
    | node b2 l r =>
      unfold bcpChildren
      simp [Tree.items]
      tauto

theorem bcpChildren_height (pos : α → Point K d) (t1 t2 : Tree α K d)
    (h1 : BoxesOk pos t1) (h2 : BoxesOk pos t2) : ∀ p ∈ bcpChildren t1 t2,
    p.1.height + p.2.height < t1.height + t2.height ∧ BoxesOk pos p.1 ∧ BoxesOk pos p.2 := by
  intro p hp
  cases t1 with
  | leaf b1 i1 =>
    cases t2 with
    | leaf b2 i2 => simp [bcpChildren] at hp
    | node b2 l r =>
      have ha := h2.2.1
      have hb := h2.2.2
      simp only [bcpChildren] at hp
      split_ifs at hp <;> simp at hp <;> rcases hp with rfl | rfl <;>
        exact ⟨by simp only [Tree.height]; omega, h1, by assumption⟩
  | node b1 l1 r1 =>
    have hc := h1.2.1
    have hd := h1.2.2
    cases t2 with
    | leaf b2 i2 =>
      simp only [bcpChildren] at hp
      split_ifs at hp <;> simp at hp <;> rcases hp with rfl | rfl <;>
        exact ⟨by simp only [Tree.height]; omega, by assumption, h2⟩
    | node b2 l r =>
      have ha := h2.2.1
      have hb := h2.2.2
      simp [bcpChildren] at hp
      rcases hp with rfl | rfl | rfl | rfl <;>
        exact ⟨by simp only [Tree.height]; omega, by assumption, by assumption⟩

theorem bcpHelper_ok (pos : α → Point K d)
    (ord : List (Tree α K d × Tree α K d) → List (Tree α K d × Tree α K d))
    (hord : ∀ l, (ord l).Perm l) (fuel : ℕ) (t1 t2 : Tree α K d) (h1 : BoxesOk pos t1)
    (h2 : BoxesOk pos t2) (hf : t1.height + t2.height < fuel) (r : Bcp α K) :
    ∃ r', bcpHelper pos ord fuel t1 t2 r = .ok r' ∧
      Scanned pos (fun x y => x ∈ t1.items ∧ y ∈ t2.items) r r' := by
  induction fuel generalizing t1 t2 r with
  | zero => omega
  | succ fuel ih =>
    unfold bcpHelper
    by_cases hp : bcpPrune t1.box t2.box r
    · rw [if_pos hp]
      refine ⟨r, rfl, Or.inl rfl, fun u v c h => ⟨u, v, c, h, le_refl _⟩, ?_⟩
      rintro x y ⟨hx, hy⟩
      cases r with
      | none => simp [bcpPrune] at hp
      | some r =>
        obtain ⟨u, v, c⟩ := r
        refine ⟨u, v, c, rfl, ?_⟩
        simp only [bcpPrune, decide_eq_true_eq] at hp
        exact hp.le.trans (nodeDistSqr_le (h1.mem_box x hx) (h2.mem_box y hy))
    · rw [if_neg hp]
      have hrec : (¬ (∃ b i, t1 = .leaf b i) ∨ ¬ ∃ b i, t2 = .leaf b i) →
          ∃ r', (ord (bcpChildren t1 t2)).foldlM
            (fun r p => bcpHelper pos ord fuel p.1 p.2 r) r = .ok r' ∧
          Scanned pos (fun x y => x ∈ t1.items ∧ y ∈ t2.items) r r' := by
        intro hne
        obtain ⟨r', h3, h4⟩ := foldlM_scanned pos (fun r p => bcpHelper pos ord fuel p.1 p.2 r)
          (fun p x y => x ∈ p.1.items ∧ y ∈ p.2.items) (ord (bcpChildren t1 t2)) (by
            intro p hp r
            have := bcpChildren_height pos t1 t2 h1 h2 p ((hord _).mem_iff.mp hp)
            exact ih p.1 p.2 this.2.1 this.2.2 (by omega) r) r
        refine ⟨r', h3, ?_⟩
        have hiff : (fun x y => ∃ p ∈ ord (bcpChildren t1 t2), x ∈ p.1.items ∧ y ∈ p.2.items) =
            fun x y => x ∈ t1.items ∧ y ∈ t2.items := by
          funext x y
          rw [← bcpChildren_mem t1 t2 hne x y]
          simp only [(hord _).mem_iff]
        rw [hiff] at h4
        exact h4
      cases t1 with
      | leaf b1 i1 =>
        cases t2 with
        | leaf b2 i2 => exact ⟨_, rfl, bcpLoop_scanned pos i1 i2 r⟩
        | node b2 l r => exact hrec (Or.inr (by simp))
      | node b1 l1 r1 => exact hrec (Or.inl (by simp))

end Verif.KdTree
