import Verif.RandInc.Final

set_option linter.unusedSectionVars false
set_option linter.unusedVariables false

/-!
C79: the randomized incremental planar hull.
-/

namespace Verif.RandInc

open Verif Verif.Hull2d

variable {K : Type} [Field K] [LinearOrder K] [IsStrictOrderedRing K]

/-! Specification -/

/-- Lexicographic order by coordinate `j`, then `j'` (`src/convexHull2d/randInc/hull.cpp:128-132`). -/
def Lex (j j' : Fin 2) (a b : Point K 2) : Prop := a j < b j ∨ (a j = b j ∧ a j' < b j')

/-- The contract of `minmax_element` with these orders (`src/convexHull2d/randInc/hull.cpp:134-140`). -/
structure MinMax (P : List (Point K 2)) (e : Ext) : Prop where
  lt : e.xMin < P.length ∧ e.xMax < P.length ∧ e.yMin < P.length ∧ e.yMax < P.length
  xMin : ∀ p ∈ P, ¬ Lex 0 1 p (P.getD e.xMin 0)
  xMax : ∀ p ∈ P, ¬ Lex 0 1 (P.getD e.xMax 0) p
  yMin : ∀ p ∈ P, ¬ Lex 1 0 p (P.getD e.yMin 0)
  yMax : ∀ p ∈ P, ¬ Lex 1 0 (P.getD e.yMax 0) p

/-- The indices `l` are those of points that span the hull. -/
def Spans (P : List (Point K 2)) (l : List ℕ) : Prop :=
  (∀ i ∈ l, i < P.length) ∧ convexHull K {p | ∃ i ∈ l, P.getD i 0 = p} = convexHull K {p | p ∈ P}

/-- The cells `l` of a heap form a doubly linked clockwise ring around the points: consecutive facets share a vertex, vertices are
input points, no input point is to the left of a facet, and the vertices span the hull. -/
structure IsRing (P : List (Point K 2)) (h : ℕ → Option Fct) (l : List ℕ) : Prop where
  nodup : l.Nodup
  cyc : ∀ j < l.length, ∃ f g, h (l.getD j 0) = some f ∧ h (l.getD ((j + 1) % l.length) 0) = some g ∧
    f.next = l.getD ((j + 1) % l.length) 0 ∧ g.prev = l.getD j 0 ∧ f.p2 = g.p1
  right : ∀ x ∈ l, ∀ f, h x = some f → ∀ p ∈ P, triArea (P.getD f.p1 0) (P.getD f.p2 0) p ≤ 0
  spans : ∃ vs : List ℕ, (∀ i, i ∈ vs ↔ ∃ x ∈ l, ∃ f, h x = some f ∧ f.p1 = i) ∧ Spans P vs

/-! Lemmas -/

theorem MinMax.ok {P : List (Point K 2)} {e : Ext} (h : MinMax P e) : e.Ok (fun i => P.getD i 0) P.length := by
  have hm : ∀ v < P.length, P.getD v 0 ∈ P := fun v hv => by
    rw [List.getD_eq_getElem _ _ hv]; exact List.getElem_mem hv
  refine ⟨h.lt, fun v hv => ?_, fun v hv => ?_, fun v hv => ?_, fun v hv => ?_⟩
  · by_contra hc; exact h.xMin _ (hm v hv) (.inl (not_le.mp hc))
  · by_contra hc; exact h.xMax _ (hm v hv) (.inl (not_le.mp hc))
  · by_contra hc; exact h.yMin _ (hm v hv) (.inl (not_le.mp hc))
  · by_contra hc; exact h.yMax _ (hm v hv) (.inl (not_le.mp hc))

theorem ring_ok {eps : K} (heps : 0 ≤ eps) (J : List (Point K 2) → (Fin 4 → ℕ) → (Fin 4 → List ℕ) → St → Prop)
    (workers numProc : ℕ) (hb : 0 < workers ∨ 0 < numProc) (o : Ords) (ho : o.Ok) (ext : List (Point K 2) → Ext) (P : List (Point K 2))
    (hP : P ≠ []) (he : MinMax P (ext P))
    (hJ0 : J P (ext P).at chain0 (start eps (fun i => P.getD i 0) (ext P) P.length))
    (hJ : ∀ C s v k A M B a e fa fs fe x0, Ins eps (fun i => P.getD i 0) P.length (ext P).at C s v k A M B a e fa fs fe x0 →
      J P (ext P).at C s → J P (ext P).at (newC C s.top k A B) (nx eps (fun i => P.getD i 0) s v a M e fa fs fe)) :
    ∃ s C, ring eps workers numProc o ext P = .ok s ∧ Inv eps (fun i => P.getD i 0) P.length (ext P).at C s ∧
      J P (ext P).at C s ∧ ∀ v, s.see v = none := by
  have hI := start_inv he.ok heps
  have hbatch : 0 < batchOf numProc workers := by
    unfold batchOf
    split_ifs with h
    · rcases hb with hb | hb <;> omega
    · omega
  unfold ring
  rw [if_neg hP]
  simp only
  rw [packRemain_ok]
  simp only [Except.bind]
  refine rounds_ok heps (J P (ext P).at) hJ hbatch ho _ _ hI hJ0 (List.nodup_range.filter _) ?_ ?_
  · intro v
    rw [List.mem_filter, List.mem_range]
    refine ⟨fun h => h.2, fun h => ⟨?_, h⟩⟩
    obtain ⟨x, hx⟩ := Option.isSome_iff_exists.mp h
    exact (hI.see v x hx).1
  · have := List.length_filter_le (fun v => ((start eps (fun i => P.getD i 0) (ext P) P.length).see v).isSome) (List.range P.length)
    rw [List.length_range] at this
    omega

theorem chain_path {h : ℕ → Option Fct} {u w : ℕ} {l : List ℕ} (hc : List.IsChain (Link h) l) (hp : Path h u l w) :
    List.IsChain (fun x y => ∃ f g, h x = some f ∧ h y = some g ∧ f.next = y ∧ g.prev = x ∧ f.p2 = g.p1) l := by
  induction l generalizing u with
  | nil => exact .nil
  | cons x l ih =>
    cases l with
    | nil => exact List.isChain_singleton x
    | cons y l =>
      rw [List.isChain_cons_cons] at hc ⊢
      obtain ⟨f, f1, f2, f3⟩ := hp
      refine ⟨?_, ih hc.2 f3⟩
      obtain ⟨g, g1, g2, -⟩ := f3
      obtain ⟨⟨⟨f', a1, a2⟩, g', b1, b2⟩, -⟩ := hc
      rw [f1, Option.some.injEq] at a1
      rw [g1, Option.some.injEq] at b1
      subst a1 b1
      exact ⟨f, g, f1, g1, a2, b2, g2.symm⟩

/-! Theorems -/

/-- C79, what is true of it for every `eps`: the function returns, with no access to a null or deleted facet, for every non-empty
input, every number of workers and every order of the iterations of its loops. (Missing: that it returns the hull.) -/
theorem c79_returns_partial {eps : K} (heps : 0 ≤ eps) (workers numProc : ℕ) (hb : 0 < workers ∨ 0 < numProc) (o : Ords) (ho : o.Ok)
    (ext : List (Point K 2) → Ext) (P : List (Point K 2)) (hP : P ≠ []) (he : MinMax P (ext P)) :
    ∃ l, compute eps workers numProc o ext P = .ok l := by
  obtain ⟨s, C, h, -⟩ := ring_ok heps (fun _ _ _ _ => True) workers numProc hb o ho ext P hP he trivial fun _ _ _ _ _ _ _ _ _ _ _ _ _ _ _ => trivial
  unfold compute
  rw [h]
  exact ⟨_, rfl⟩

/-- C79 is false for every non-empty input: what is returned does not span the hull. -/
theorem c79_empty_false (eps : K) (workers numProc : ℕ) (o : Ords) (ext : List (Point K 2) → Ext) (P : List (Point K 2)) (hP : P ≠ [])
    (l : List ℕ) (h : compute eps workers numProc o ext P = .ok l) : ¬ Spans P l := by
  unfold compute at h
  cases hr : ring eps workers numProc o ext P with
  | error x => rw [hr] at h; cases h
  | ok s =>
    rw [hr] at h
    simp only [Except.map, Except.ok.injEq] at h
    subst h
    rintro ⟨-, h⟩
    obtain ⟨p, hp⟩ := List.exists_mem_of_ne_nil P hP
    have : p ∈ convexHull K {p : Point K 2 | p ∈ P} := subset_convexHull K _ hp
    rw [← h] at this
    simp at this

/-- With exact tests the ring that is built when the loops end, and then dropped, is the boundary of the hull. -/
theorem c79_ring_partial (workers numProc : ℕ) (hb : 0 < workers ∨ 0 < numProc) (o : Ords) (ho : o.Ok)
    (ext : List (Point K 2) → Ext) (P : List (Point K 2)) (hP : P ≠ []) (he : MinMax P (ext P)) :
    ∃ s l, ring (0 : K) workers numProc o ext P = .ok s ∧ s.H ∈ l ∧ IsRing P s.heap l := by
  obtain ⟨s, C, h, hI, hC, hnull⟩ := ring_ok (le_refl (0 : K)) (fun P Q C s => Conv (fun i => P.getD i 0) P.length Q C s) workers numProc hb o ho ext P hP he
    (start_conv he.ok) fun C s v k A M B a e fa fs fe x0 hIns hC => hIns.conv hC
  have hmemC : ∀ x, x ∈ C 0 ++ C 1 ++ C 2 ++ C 3 ↔ ∃ i, x ∈ C i := by
    intro x
    simp only [List.mem_append]
    constructor
    · rintro (((h | h) | h) | h)
      · exact ⟨_, h⟩
      · exact ⟨_, h⟩
      · exact ⟨_, h⟩
      · exact ⟨_, h⟩
    · rintro ⟨i, hi⟩
      fin_cases i
      · exact .inl (.inl (.inl hi))
      · exact .inl (.inl (.inr hi))
      · exact .inl (.inr hi)
      · exact .inr hi
  obtain ⟨hl1, hl2⟩ := hI.line 0
  have hl1 : List.IsChain (Link s.heap) (C 0 ++ C 1 ++ C 2 ++ C 3) := hl1
  have hl2 : (C 0 ++ C 1 ++ C 2 ++ C 3).Nodup := hl2
  have hclose : List.IsChain (Link s.heap) (C 3 ++ C 0) := hI.link 3
  have hall := hl1.append_overlap (l₁ := C 0 ++ C 1 ++ C 2) hclose (hI.ne 3)
  have hpath : Path s.heap ((ext P).at 0) (C 0 ++ C 1 ++ C 2 ++ C 3 ++ C 0) ((ext P).at 1) := by
    simp only [path_append]
    exact ⟨_, ⟨_, ⟨_, ⟨_, hI.path 0, hI.path 1⟩, hI.path 2⟩, hI.path 3⟩, hI.path 0⟩
  have hcyc := chain_path hall hpath
  set l := C 0 ++ C 1 ++ C 2 ++ C 3 with hl
  have hlive : ∀ x ∈ l, ∃ f, s.heap x = some f := fun x hx => by
    obtain ⟨i, hi⟩ := (hmemC x).mp hx
    exact hI.live i x hi
  obtain ⟨y0, l0, hy0⟩ := List.exists_cons_of_ne_nil (hI.ne 0)
  have hlpos : 0 < l.length := by rw [hl, hy0]; simp
  have hget0 : l.getD 0 0 = y0 := by rw [hl, hy0]; simp
  have hcy : ∀ j < l.length, ∃ f g, s.heap (l.getD j 0) = some f ∧ s.heap (l.getD ((j + 1) % l.length) 0) = some g ∧
      f.next = l.getD ((j + 1) % l.length) 0 ∧ g.prev = l.getD j 0 ∧ f.p2 = g.p1 := by
    intro j hj
    rw [List.isChain_iff_getElem] at hcyc
    have := hcyc j (by rw [List.length_append, hy0]; simp; omega)
    have e1 : (l ++ C 0)[j]'(by rw [List.length_append]; omega) = l.getD j 0 := by
      rw [List.getElem_append_left hj, List.getD_eq_getElem _ _ hj]
    have e2 : (l ++ C 0)[j + 1]'(by rw [List.length_append, hy0]; simp; omega) = l.getD ((j + 1) % l.length) 0 := by
      by_cases hj' : j + 1 < l.length
      · rw [List.getElem_append_left hj', Nat.mod_eq_of_lt hj', List.getD_eq_getElem _ _ hj']
      · have : j + 1 = l.length := by omega
        rw [List.getElem_append_right (by omega)]
        rw [show (j + 1) % l.length = 0 by rw [this]; exact Nat.mod_self _, hget0]
        simp [this, hy0]
    rw [e1, e2] at this
    exact this
  have hpmem : ∀ p ∈ P, ∃ i < P.length, P.getD i 0 = p := by
    intro p hp
    obtain ⟨i, hi, rfl⟩ := List.getElem_of_mem hp
    exact ⟨i, hi, List.getD_eq_getElem _ _ hi⟩
  have hrv : ∀ t, RV C s.heap t ↔ ∃ x ∈ l, ∃ f, s.heap x = some f ∧ f.p1 = t := by
    intro t
    constructor
    · rintro ⟨i, x, hx, f, hf, rfl | rfl⟩
      · exact ⟨x, (hmemC x).mpr ⟨i, hx⟩, f, hf, rfl⟩
      · obtain ⟨j, hj, hjx⟩ := List.getElem_of_mem ((hmemC x).mpr ⟨i, hx⟩)
        obtain ⟨f', g, a1, a2, -, -, a3⟩ := hcy j hj
        rw [List.getD_eq_getElem _ _ hj, hjx, hf, Option.some.injEq] at a1
        subst a1
        refine ⟨_, ?_, g, a2, a3.symm⟩
        have hlt := Nat.mod_lt (j + 1) hlpos
        rw [List.getD_eq_getElem _ _ hlt]
        exact List.getElem_mem hlt
    · rintro ⟨x, hx, f, hf, h1⟩
      obtain ⟨i, hi⟩ := (hmemC x).mp hx
      exact ⟨i, x, hi, f, hf, .inl h1⟩
  have hin : ∀ p ∈ P, p ∈ convexHull K (RS (fun i => P.getD i 0) C s.heap) := by
    intro p hp
    obtain ⟨i, hi, rfl⟩ := hpmem p hp
    exact hC.inn i hi (hnull i)
  refine ⟨s, l, h, ?_, hl2, hcy, ?_, ?_⟩
  · obtain ⟨i, hi⟩ := hI.head
    exact (hmemC _).mpr ⟨i, hi⟩
  · intro x hx f hf p hp
    obtain ⟨i, hi⟩ := (hmemC x).mp hx
    refine hull_right ?_ (hin p hp)
    rintro q ⟨t, ht, rfl⟩
    exact hC.cvx t ht i x hi f hf
  · refine ⟨(List.range P.length).filter fun i => l.any fun x => (s.heap x).any fun f => f.p1 == i, ?_, ?_⟩
    · intro i
      rw [List.mem_filter, List.mem_range, List.any_eq_true]
      constructor
      · rintro ⟨-, x, hx, hxx⟩
        obtain ⟨f, hf⟩ := hlive x hx
        rw [hf] at hxx
        exact ⟨x, hx, f, hf, by simpa using hxx⟩
      · rintro ⟨x, hx, f, hf, hi⟩
        refine ⟨((hrv i).mpr ⟨x, hx, f, hf, hi⟩).lt hI, x, hx, ?_⟩
        rw [hf]
        simpa using hi
    · refine ⟨fun i hi => List.mem_range.mp (List.mem_filter.mp hi).1, ?_⟩
      apply le_antisymm
      · apply convexHull_mono
        rintro p ⟨i, hi, rfl⟩
        have hi' := List.mem_range.mp (List.mem_filter.mp hi).1
        show P.getD i 0 ∈ P
        rw [List.getD_eq_getElem _ _ hi']
        exact List.getElem_mem hi'
      · refine convexHull_min ?_ (convex_convexHull K _)
        intro p hp
        refine convexHull_mono ?_ (hin p hp)
        rintro q ⟨t, ht, rfl⟩
        refine ⟨t, ?_, rfl⟩
        rw [List.mem_filter, List.mem_range, List.any_eq_true]
        refine ⟨ht.lt hI, ?_⟩
        obtain ⟨x, hx, f, hf, h1⟩ := (hrv t).mp ht
        exact ⟨x, hx, by rw [hf]; simpa using h1⟩

/-- The minimum of no points is dereferenced. -/
theorem c79_no_points (eps : K) (workers numProc : ℕ) (o : Ords) (ext : List (Point K 2) → Ext) :
    compute eps workers numProc o ext [] = .error .ub := rfl

/-! Example -/

/-- Eight points: two of them see the same corner facet, so that they conflict in the first round; one is on a facet, one inside. -/
def P8 : List (Point ℚ 2) := [![0, 2], ![2, 4], ![4, 2], ![2, 0], ![1, 4], ![0, 3], ![3, 1], ![2, 2]]

/-- Orders: forwards, backwards, forwards. -/
def o8 : Ords := ⟨fun _ l => l, fun _ l => l.reverse, fun _ l => l⟩

theorem o8_ok : o8.Ok := ⟨fun _ _ => .refl _, fun _ l => List.reverse_perm l, fun _ _ => .refl _⟩

theorem minmax8 : MinMax P8 ⟨0, 2, 3, 1⟩ := by
  refine ⟨by decide, ?_, ?_, ?_, ?_⟩ <;> unfold Lex P8 <;> simp <;> norm_num

/-- The hypotheses are met, and two vertices are inserted: eight facets are allocated. -/
example : (∃ s l, ring (0 : ℚ) 2 0 o8 (fun _ => ⟨0, 2, 3, 1⟩) P8 = .ok s ∧ s.H ∈ l ∧ IsRing P8 s.heap l) ∧
    (∃ l, compute (1 / 1000 : ℚ) 2 0 o8 (fun _ => ⟨0, 2, 3, 1⟩) P8 = .ok l ∧ ¬ Spans P8 l) ∧
    (ring (0 : ℚ) 2 0 o8 (fun _ => ⟨0, 2, 3, 1⟩) P8).toOption.map (fun s => s.top) = some 8 := by
  refine ⟨c79_ring_partial 2 0 (.inl (by decide)) o8 o8_ok _ P8 (by decide) minmax8, ?_, by decide +kernel⟩
  obtain ⟨l, hl⟩ := c79_returns_partial (eps := (1 / 1000 : ℚ)) (by norm_num) 2 0 (.inl (by decide)) o8 o8_ok (fun _ => ⟨0, 2, 3, 1⟩) P8
    (by decide) minmax8
  exact ⟨l, hl, c79_empty_false _ 2 0 o8 _ P8 (by decide) l hl⟩

end Verif.RandInc
