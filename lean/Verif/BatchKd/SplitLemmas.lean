import Mathlib.Algebra.Order.Field.Basic
import Mathlib.Tactic.Linarith
import Verif.BatchKd.BuildLemmas

set_option linter.unusedSectionVars false
set_option linter.unusedVariables false

/-! The two partition heuristics meet what the build needs. -/

namespace Verif.BatchKd

variable {α K : Type} {d : ℕ}

section
variable [Field K] [LinearOrder K]

/-- Specification: no two items share a coordinate, in any dimension. -/
def DistinctCoords (pos : α → Point K d) (L : List α) : Prop :=
  ∀ dim, (L.map fun x => pos x dim).Nodup

theorem DistinctCoords.sub {pos : α → Point K d} (L L' : List α) (h : L'.Subperm L)
    (hL : DistinctCoords pos L) : DistinctCoords pos L' := by
  intro dim
  obtain ⟨M, h1, h2⟩ := h
  exact ((h1.map fun x => pos x dim).nodup_iff).1 ((hL dim).sublist (h2.map _))

theorem DistinctCoords.perm {pos : α → Point K d} {L L' : List α} (h : L'.Perm L)
    (hL : DistinctCoords pos L) : DistinctCoords pos L' :=
  DistinctCoords.sub _ _ h.subperm hL

theorem DistinctCoords.ne_take_drop {pos : α → Point K d} {L : List α} (hL : DistinctCoords pos L)
    (m : ℕ) {x y : α} (dim : Fin d) (hx : x ∈ L.take m) (hy : y ∈ L.drop m) :
    pos x dim ≠ pos y dim := by
  have h := hL dim
  rw [← List.take_append_drop m L, List.map_append, List.nodup_append] at h
  exact h.2.2 _ (List.mem_map_of_mem hx) _ (List.mem_map_of_mem hy)

variable {pos : α → Point K d} {nth : Fin d → ℕ → List α → List α} {srt : Fin d → List α → List α}
  {leafSize : ℕ} {par : ℕ → Bool} {part : Fin d → K → List α → List α}

theorem objectCfg_split_snd (dim : Fin d) (L : List α) :
    ((objectCfg leafSize par nth srt pos).split dim L).2.2 = L.length / 2 := by
  unfold objectCfg
  simp only
  split <;> rfl

theorem objectCfg_ok (hn : NthItems nth pos) (hs : SortItems srt pos) (hl : 1 ≤ leafSize) :
    SplitOK (objectCfg leafSize par nth srt pos) := by
  constructor
  · intro dim L h
    have hL : leafSize < L.length := h
    unfold objectCfg
    simp only
    split
    · exact (hs dim L).1
    · exact (hn dim _ L (by omega)).1
  · intro dim L h
    rw [objectCfg_split_snd]
    omega

variable [IsStrictOrderedRing K]

theorem objectCfg_strict (hn : NthItems nth pos) (hs : SortItems srt pos) (hl : 1 ≤ leafSize)
    (dim : Fin d) (L : List α) (hP : DistinctCoords pos L) (hlen : leafSize < L.length) :
    let s := (objectCfg leafSize par nth srt pos).split dim L
    (∀ x ∈ s.1.take s.2.2, pos x dim < s.2.1) ∧ (∀ x ∈ s.1.drop s.2.2, s.2.1 ≤ pos x dim) := by
  intro s
  have hsd : s = (objectCfg leafSize par nth srt pos).split dim L := rfl
  unfold objectCfg at hsd
  simp only at hsd
  rw [hsd]
  split
  · obtain ⟨hp, hsort⟩ := hs dim L
    have hlen' := hp.length_eq
    have h1 : L.length / 2 - 1 < (srt dim L).length := by omega
    have h2 : L.length / 2 < (srt dim L).length := by omega
    simp only [parallelMedian, List.getElem?_eq_getElem h1, List.getElem?_eq_getElem h2,
      Option.map_some, Option.getD_some]
    rw [List.pairwise_iff_getElem] at hsort
    have hlt : pos (srt dim L)[L.length / 2 - 1] dim < pos (srt dim L)[L.length / 2] dim := by
      refine lt_of_le_of_ne (hsort _ _ h1 h2 (by omega)) ?_
      refine (hP.perm hp).ne_take_drop (L.length / 2) dim ?_ ?_
      · rw [List.mem_take_iff_getElem]
        exact ⟨L.length / 2 - 1, by omega, rfl⟩
      · rw [List.mem_drop_iff_getElem]
        exact ⟨0, by omega, by simp⟩
    constructor
    · intro x hx
      rw [List.mem_take_iff_getElem] at hx
      obtain ⟨i, hi, rfl⟩ := hx
      have : pos (srt dim L)[i] dim ≤ pos (srt dim L)[L.length / 2 - 1] dim := by
        rcases Nat.lt_or_ge i (L.length / 2 - 1) with h | h
        · exact hsort _ _ (by omega) h1 h
        · have : i = L.length / 2 - 1 := by omega
          subst this
          exact le_rfl
      linarith
    · intro x hx
      rw [List.mem_drop_iff_getElem] at hx
      obtain ⟨i, hi, rfl⟩ := hx
      have : pos (srt dim L)[L.length / 2] dim ≤ pos (srt dim L)[L.length / 2 + i] dim := by
        rcases Nat.eq_zero_or_pos i with h | h
        · subst h
          exact le_rfl
        · exact hsort _ _ h2 (by omega) (by omega)
      linarith
  · have hm : L.length / 2 < L.length := by omega
    obtain ⟨hp, hr⟩ := hn dim (L.length / 2) L hm
    have hlen' := hp.length_eq
    have h2 : L.length / 2 < (nth dim (L.length / 2) L).length := by omega
    simp only [serialMedian, List.getElem?_eq_getElem h2, Option.map_some, Option.getD_some]
    obtain ⟨ha, hb⟩ := hr _ (List.getElem?_eq_getElem h2)
    refine ⟨?_, hb⟩
    intro x hx
    refine lt_of_le_of_ne (ha x hx) ((hP.perm hp).ne_take_drop (L.length / 2) dim hx ?_)
    rw [List.mem_drop_iff_getElem]
    exact ⟨0, by omega, by simp⟩

omit [IsStrictOrderedRing K] in
theorem minCoord_spec (dim : Fin d) (L : List α) (hL : L ≠ []) :
    (∀ x ∈ L, minCoord pos dim L ≤ pos x dim) ∧ ∃ x ∈ L, minCoord pos dim L = pos x dim := by
  cases L with
  | nil => exact absurd rfl hL
  | cons y L =>
    clear hL
    have key : ∀ (M : List α) (m : K), (M.foldl (fun m y => min m (pos y dim)) m ≤ m) ∧
        (∀ x ∈ M, M.foldl (fun m y => min m (pos y dim)) m ≤ pos x dim) ∧
        (M.foldl (fun m y => min m (pos y dim)) m = m ∨
          ∃ x ∈ M, M.foldl (fun m y => min m (pos y dim)) m = pos x dim) := by
      intro M
      induction M with
      | nil => exact fun m => ⟨le_rfl, by simp, Or.inl rfl⟩
      | cons z M ih =>
        intro m
        rw [List.foldl_cons]
        obtain ⟨h1, h2, h3⟩ := ih (min m (pos z dim))
        refine ⟨h1.trans (min_le_left _ _), ?_, ?_⟩
        · intro x hx
          rcases List.mem_cons.1 hx with rfl | hx
          · exact h1.trans (min_le_right _ _)
          · exact h2 x hx
        · rcases h3 with h3 | ⟨x, hx, h3⟩
          · rcases min_choice m (pos z dim) with h | h
            · exact Or.inl (h3.trans h)
            · exact Or.inr ⟨z, by simp, h3.trans h⟩
          · exact Or.inr ⟨x, by simp [hx], h3⟩
    obtain ⟨h1, h2, h3⟩ := key L (pos y dim)
    unfold minCoord
    refine ⟨?_, ?_⟩
    · intro x hx
      rcases List.mem_cons.1 hx with rfl | hx
      · exact h1
      · exact h2 x hx
    · rcases h3 with h3 | ⟨x, hx, h3⟩
      · exact ⟨y, by simp, h3⟩
      · exact ⟨x, by simp [hx], h3⟩

omit [IsStrictOrderedRing K] in
theorem maxCoord_spec (dim : Fin d) (L : List α) (hL : L ≠ []) :
    (∀ x ∈ L, pos x dim ≤ maxCoord pos dim L) ∧ ∃ x ∈ L, maxCoord pos dim L = pos x dim := by
  cases L with
  | nil => exact absurd rfl hL
  | cons y L =>
    clear hL
    have key : ∀ (M : List α) (m : K), (m ≤ M.foldl (fun m y => max m (pos y dim)) m) ∧
        (∀ x ∈ M, pos x dim ≤ M.foldl (fun m y => max m (pos y dim)) m) ∧
        (M.foldl (fun m y => max m (pos y dim)) m = m ∨
          ∃ x ∈ M, M.foldl (fun m y => max m (pos y dim)) m = pos x dim) := by
      intro M
      induction M with
      | nil => exact fun m => ⟨le_rfl, by simp, Or.inl rfl⟩
      | cons z M ih =>
        intro m
        rw [List.foldl_cons]
        obtain ⟨h1, h2, h3⟩ := ih (max m (pos z dim))
        refine ⟨(le_max_left _ _).trans h1, ?_, ?_⟩
        · intro x hx
          rcases List.mem_cons.1 hx with rfl | hx
          · exact (le_max_right _ _).trans h1
          · exact h2 x hx
        · rcases h3 with h3 | ⟨x, hx, h3⟩
          · rcases max_choice m (pos z dim) with h | h
            · exact Or.inl (h3.trans h)
            · exact Or.inr ⟨z, by simp, h3.trans h⟩
          · exact Or.inr ⟨x, by simp [hx], h3⟩
    obtain ⟨h1, h2, h3⟩ := key L (pos y dim)
    unfold maxCoord
    refine ⟨?_, ?_⟩
    · intro x hx
      rcases List.mem_cons.1 hx with rfl | hx
      · exact h1
      · exact h2 x hx
    · rcases h3 with h3 | ⟨x, hx, h3⟩
      · exact ⟨y, by simp, h3⟩
      · exact ⟨x, by simp [hx], h3⟩

theorem spatialCfg_ok (hp : PartItems part pos) : SplitOK (spatialCfg leafSize part pos) :=
  ⟨fun dim L _ => (hp dim _ L).1, fun dim L _ => List.countP_le_length⟩

theorem spatialCfg_strict (hp : PartItems part pos) (dim : Fin d) (L : List α) :
    let s := (spatialCfg leafSize part pos).split dim L
    (∀ x ∈ s.1.take s.2.2, pos x dim < s.2.1) ∧ (∀ x ∈ s.1.drop s.2.2, s.2.1 ≤ pos x dim) :=
  ⟨(hp dim _ L).2.1, (hp dim _ L).2.2⟩

theorem spatialCfg_lt (dim : Fin d) (L : List α) (hL : L ≠ []) :
    ((spatialCfg leafSize part pos).split dim L).2.2 < L.length := by
  show L.countP (fun x => decide (pos x dim < (minCoord pos dim L + maxCoord pos dim L) / 2)) < _
  refine lt_of_le_of_ne List.countP_le_length fun h => ?_
  rw [List.countP_eq_length] at h
  obtain ⟨x, hx, hmax⟩ := (maxCoord_spec (pos := pos) dim L hL).2
  have h1 := h x hx
  have h2 := (minCoord_spec (pos := pos) dim L hL).1 x hx
  rw [decide_eq_true_iff] at h1
  linarith

theorem spatialCfg_pos (dim : Fin d) (L : List α) (hP : DistinctCoords pos L) (hL : 1 < L.length) :
    0 < ((spatialCfg leafSize part pos).split dim L).2.2 := by
  show 0 < L.countP (fun x => decide (pos x dim < (minCoord pos dim L + maxCoord pos dim L) / 2))
  rw [List.countP_pos_iff]
  have hne : L ≠ [] := by
    rintro rfl
    simp at hL
  obtain ⟨h1, x, hx, hmin⟩ := minCoord_spec (pos := pos) dim L hne
  obtain ⟨h2, y, hy, hmax⟩ := maxCoord_spec (pos := pos) dim L hne
  refine ⟨x, hx, ?_⟩
  rw [decide_eq_true_iff]
  have hlt : pos x dim < pos y dim := by
    rw [← hmin, ← hmax]
    refine lt_of_not_ge fun hge => ?_
    have hall : ∀ z ∈ L, pos z dim = pos x dim := fun z hz =>
      le_antisymm (by rw [← hmin]; exact (h2 z hz).trans hge) (by rw [← hmin]; exact h1 z hz)
    have hnd := hP dim
    rw [List.nodup_iff_injective_getElem] at hnd
    have := @hnd ⟨0, by rw [List.length_map]; omega⟩ ⟨1, by rw [List.length_map]; omega⟩ (by
      simp only [List.getElem_map]
      rw [hall _ (List.getElem_mem _), hall _ (List.getElem_mem _)])
    simp at this
  linarith

end

end Verif.BatchKd
