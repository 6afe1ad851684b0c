import Verif.Mst.Graph
import Mathlib.Algebra.BigOperators.Group.Finset.Basic
import Mathlib.Algebra.Order.BigOperators.Group.Finset
import Mathlib.Data.Finset.Powerset

set_option linter.unusedSectionVars false
set_option linter.unusedVariables false

/-!
The greedy forest has minimum weight, by exchanging edges.
-/

namespace Verif.Mst

variable {V : Type*} {u v : ℕ → V} {A B : Set ℕ} {a b c : V}

/-- A finite set of edges connecting two vertices has a minimal such subset. -/
theorem exists_minimal_conn (F : Finset ℕ) (h : ConnS u v F a b) :
    ∃ F0 ⊆ F, ConnS u v F0 a b ∧ ∀ j ∈ F0, ¬ ConnS u v ((F0 : Set ℕ) \ {j}) a b := by
  induction F using Finset.strongInduction with
  | H F ih =>
    by_cases hm : ∀ j ∈ F, ¬ ConnS u v ((F : Set ℕ) \ {j}) a b
    · exact ⟨F, Finset.Subset.refl _, h, hm⟩
    · push Not at hm
      obtain ⟨j, hj, hc⟩ := hm
      have hss : F.erase j ⊂ F := Finset.erase_ssubset hj
      obtain ⟨F0, h1, h2, h3⟩ := ih (F.erase j) hss (by rw [Finset.coe_erase]; exact hc)
      exact ⟨F0, h1.trans hss.subset, h2, h3⟩

/-- Exchange: if `F` connects the ends of `i` but the edges of `F` inside `G` do not, then
some edge of `F` outside `G` can be replaced by `i` without losing any connection or making a cycle. -/
theorem exchange (F : Finset ℕ) (i : ℕ) (hi : i ∉ F) (hc : ConnS u v F (u i) (v i)) (G : Set ℕ)
    (hG : ¬ ConnS u v G (u i) (v i)) :
    ∃ b ∈ F, b ∉ G ∧
      (∀ x y, ConnS u v F x y → ConnS u v ((insert i (F.erase b) : Finset ℕ) : Set ℕ) x y) ∧
      (Acyclic u v F → Acyclic u v ((insert i (F.erase b) : Finset ℕ) : Set ℕ)) := by
  obtain ⟨F0, hF0, h1, h2⟩ := exists_minimal_conn F hc
  obtain ⟨b, hb, hbG⟩ : ∃ b ∈ F0, b ∉ G := by
    by_contra hno
    push Not at hno
    exact hG (h1.mono fun j hj => hno j hj)
  have hbF := hF0 hb
  have hne : ¬ ConnS u v ((F0 : Set ℕ) \ {b}) (u i) (v i) := h2 b hb
  have hins : (F0 : Set ℕ) = insert b ((F0 : Set ℕ) \ {b}) := by
    ext j
    simp only [Set.mem_insert_iff, Set.mem_sdiff, Set.mem_singleton_iff, Finset.mem_coe]
    constructor
    · intro hj
      by_cases hjb : j = b
      · exact Or.inl hjb
      · exact Or.inr ⟨hj, hjb⟩
    · rintro (rfl | h)
      · exact hb
      · exact h.1
  have hsub : (F0 : Set ℕ) \ {b} ⊆ ((F.erase b : Finset ℕ) : Set ℕ) := by
    intro j hj
    rw [Finset.coe_erase]
    exact ⟨hF0 hj.1, hj.2⟩
  -- the ends of i and of b
  have hcase : (ConnS u v ((F.erase b : Finset ℕ) : Set ℕ) (u i) (u b) ∧
        ConnS u v ((F.erase b : Finset ℕ) : Set ℕ) (v b) (v i)) ∨
      (ConnS u v ((F.erase b : Finset ℕ) : Set ℕ) (u i) (v b) ∧
        ConnS u v ((F.erase b : Finset ℕ) : Set ℕ) (u b) (v i)) := by
    rw [hins, connS_insert] at h1
    rcases h1 with h | ⟨h, h'⟩ | ⟨h, h'⟩
    · exact absurd h hne
    · exact Or.inl ⟨h.mono hsub, h'.mono hsub⟩
    · exact Or.inr ⟨h.mono hsub, h'.mono hsub⟩
  have hsub2 : ((F.erase b : Finset ℕ) : Set ℕ) ⊆ ((insert i (F.erase b) : Finset ℕ) : Set ℕ) := by
    intro j hj
    simp only [Finset.coe_insert, Set.mem_insert_iff]
    exact Or.inr hj
  have hie : ConnS u v ((insert i (F.erase b) : Finset ℕ) : Set ℕ) (u i) (v i) :=
    .edge (by simp)
  refine ⟨b, hbF, hbG, ?_, ?_⟩
  · intro x y hxy
    refine hxy.of_sub fun j hj => ?_
    by_cases hjb : j = b
    · subst hjb
      rcases hcase with ⟨h, h'⟩ | ⟨h, h'⟩
      · exact ((h.mono hsub2).symm.trans hie).trans (h'.mono hsub2).symm
      · exact (h'.mono hsub2).trans (hie.symm.trans (h.mono hsub2))
    · exact .edge (hsub2 (by rw [Finset.coe_erase]; exact ⟨hj, hjb⟩))
  · intro hac
    rw [Finset.coe_insert]
    have hFb : ¬ ConnS u v ((F.erase b : Finset ℕ) : Set ℕ) (u b) (v b) := by
      rw [Finset.coe_erase]
      exact hac b hbF
    apply (hac.mono (A := ((F.erase b : Finset ℕ) : Set ℕ)) (by
      rw [Finset.coe_erase]; exact Set.sdiff_subset)).add
    intro h
    apply hFb
    rcases hcase with ⟨h3, h4⟩ | ⟨h3, h4⟩
    · exact (h3.symm.trans h).trans h4.symm
    · exact h4.trans (h.symm.trans h3)

variable {K : Type*} [AddCommGroup K] [LinearOrder K] [IsOrderedAddMonoid K]

/-- The greedy edges among the first `m`, and the weight of sets of edges. -/
theorem greedy_exchange (m : ℕ) (w : ℕ → K) (hw : ∀ i j, i ≤ j → j < m → w i ≤ w j)
    (S : Finset ℕ) (hS : ∀ i, i ∈ S ↔ i < m ∧ i ∈ greedy u v) (F : Finset ℕ) (hF : ∀ i ∈ F, i < m)
    (hsp : ∀ i < m, ConnS u v F (u i) (v i)) :
    ∃ F' : Finset ℕ, S ⊆ F' ∧ (∑ i ∈ F', w i) ≤ ∑ i ∈ F, w i ∧ (Acyclic u v F → Acyclic u v F') ∧
      ∀ i ∈ F', i < m := by
  generalize hk : (S \ F).card = k
  induction k generalizing F with
  | zero =>
    refine ⟨F, ?_, le_refl _, fun h => h, hF⟩
    rw [Finset.card_eq_zero, Finset.sdiff_eq_empty_iff_subset] at hk
    exact hk
  | succ k ih =>
    have : (S \ F).Nonempty := by rw [← Finset.card_pos]; omega
    obtain ⟨i, hiSF⟩ := this
    obtain ⟨hiS, hiF⟩ := Finset.mem_sdiff.mp hiSF
    obtain ⟨him, hig⟩ := (hS i).mp hiS
    have hSac : Acyclic u v S := by
      have := greedy_prefix_acyclic (u := u) (v := v) m
      refine this.mono ?_
      intro j hj
      exact (hS j).mp hj
    have hG : ¬ ConnS u v ({j | j < i} ∪ ((S : Set ℕ) \ {i})) (u i) (v i) := by
      intro hc
      apply hSac i hiS
      refine hc.of_sub ?_
      rintro j (hj | hj)
      · refine (greedy_spans i hj).mono ?_
        intro l hl
        exact ⟨(hS l).mpr ⟨lt_trans hl.1 him, hl.2⟩, by
          intro h
          have h1 := hl.1
          rw [Set.mem_singleton_iff] at h
          omega⟩
      · exact .edge hj
    obtain ⟨b, hb, hbG, hsp', hac'⟩ := exchange F i hiF (hsp i him) _ hG
    have hbm := hF b hb
    have hbi : i ≤ b := by
      by_contra h
      exact hbG (Or.inl (by simpa using h))
    have hbne : b ≠ i := by rintro rfl; exact hiF hb
    have hbS : b ∉ S := fun h => hbG (Or.inr ⟨h, hbne⟩)
    have hie : i ∉ F.erase b := fun h => hiF (Finset.mem_of_mem_erase h)
    obtain ⟨F', h1, h2, h3, h4⟩ := ih (insert i (F.erase b)) (by
        intro j hj
        rcases Finset.mem_insert.mp hj with rfl | hj
        · exact him
        · exact hF j (Finset.mem_of_mem_erase hj))
      (fun j hj => hsp' _ _ (hsp j hj)) (by
        have hE : S \ insert i (F.erase b) = (S \ F).erase i := by
          ext j
          simp only [Finset.mem_sdiff, Finset.mem_insert, Finset.mem_erase, not_or, not_and]
          constructor
          · rintro ⟨g1, g2, g3⟩
            refine ⟨g2, g1, fun g4 => ?_⟩
            by_cases hjb : j = b
            · exact hbS (hjb ▸ g1)
            · exact g3 hjb g4
          · rintro ⟨g1, g2, g3⟩
            exact ⟨g2, g1, fun _ => g3⟩
        rw [hE, Finset.card_erase_of_mem hiSF, hk]
        rfl)
    refine ⟨F', h1, h2.trans ?_, fun h => h3 (hac' h), h4⟩
    rw [Finset.sum_insert hie, ← Finset.add_sum_erase F w hb]
    exact add_le_add_left (hw i b hbi hbm) _

/-- The greedy forest is lightest among all forests with the same connections. -/
theorem greedy_min (m : ℕ) (w : ℕ → K) (hw : ∀ i j, i ≤ j → j < m → w i ≤ w j)
    (S : Finset ℕ) (hS : ∀ i, i ∈ S ↔ i < m ∧ i ∈ greedy u v) (F : Finset ℕ) (hF : ∀ i ∈ F, i < m)
    (hsp : ∀ i < m, ConnS u v F (u i) (v i)) (hac : Acyclic u v F) :
    (∑ i ∈ S, w i) ≤ ∑ i ∈ F, w i := by
  obtain ⟨F', h1, h2, h3, h4⟩ := greedy_exchange m w hw S hS F hF hsp
  have : S = F' := by
    refine Finset.Subset.antisymm h1 fun j hj => ?_
    by_contra hjS
    refine h3 hac j hj ?_
    refine (greedy_spans m (h4 j hj)).mono ?_
    intro l hl
    exact ⟨h1 ((hS l).mpr hl), by rintro rfl; exact hjS ((hS l).mpr hl)⟩
  rw [this]
  exact h2

/-- With nonnegative weights it is lightest among all sets of edges with the same connections. -/
theorem greedy_min_nonneg (m : ℕ) (w : ℕ → K) (hw : ∀ i j, i ≤ j → j < m → w i ≤ w j)
    (h0 : ∀ i < m, 0 ≤ w i)
    (S : Finset ℕ) (hS : ∀ i, i ∈ S ↔ i < m ∧ i ∈ greedy u v) (F : Finset ℕ) (hF : ∀ i ∈ F, i < m)
    (hsp : ∀ i < m, ConnS u v F (u i) (v i)) :
    (∑ i ∈ S, w i) ≤ ∑ i ∈ F, w i := by
  obtain ⟨F', h1, h2, h3, h4⟩ := greedy_exchange m w hw S hS F hF hsp
  exact (Finset.sum_le_sum_of_subset_of_nonneg h1 fun i hi _ => h0 i (h4 i hi)).trans h2

end Verif.Mst
