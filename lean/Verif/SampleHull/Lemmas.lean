import Verif.SampleHull.Model
import Verif.KdTree.BuildProps
import Verif.Hull2d.DcProps

set_option linter.unusedSectionVars false
set_option linter.unusedVariables false

/-!
Lemmas on the sampling filter.
-/

namespace Verif.SampleHull

open Verif

variable {K : Type} {d : ℕ}

section
variable [Field K] [LinearOrder K] [IsStrictOrderedRing K]

/-- The values of a facet at the corners of a box bound its values in the box. -/
def CornerOK (corners : Box K d → List (Point K d)) (f : Facet K d) : Prop :=
  ∀ (b : Box K d) (p : Point K d), b.Mem p →
    (∃ c ∈ corners b, f.vol p ≤ f.vol c) ∧ ∃ c ∈ corners b, f.vol c ≤ f.vol p

theorem lin_pick (B lo hi x : K) (h1 : lo ≤ x) (h2 : x ≤ hi) :
    (B * x ≤ B * lo ∨ B * x ≤ B * hi) ∧ (B * lo ≤ B * x ∨ B * hi ≤ B * x) := by
  rcases le_total 0 B with h | h
  · exact ⟨Or.inr (mul_le_mul_of_nonneg_left h2 h), Or.inl (mul_le_mul_of_nonneg_left h1 h)⟩
  · exact ⟨Or.inl (mul_le_mul_of_nonpos_left h1 h), Or.inr (mul_le_mul_of_nonpos_left h2 h)⟩

theorem facet2_corner (a b : Point K 2) : CornerOK corners2 (facet2 a b) := by
  intro bx p hp
  have e : ∀ c : Point K 2, (facet2 a b).vol c =
      (-(b 0 - a 0) * a 1 + (b 1 - a 1) * a 0) + (-(b 1 - a 1)) * c 0 + (b 0 - a 0) * c 1 := by
    intro c
    simp only [facet2, Hull2d.triArea]
    ring
  have h0 := lin_pick (-(b 1 - a 1)) _ _ _ (hp 0).1 (hp 0).2
  have h1 := lin_pick (b 0 - a 0) _ _ _ (hp 1).1 (hp 1).2
  simp only [corners2, List.mem_cons, List.not_mem_nil, or_false, exists_eq_or_imp, exists_eq_left, e,
    Matrix.cons_val_zero, Matrix.cons_val_one]
  obtain ⟨h0a, h0b⟩ := h0
  obtain ⟨h1a, h1b⟩ := h1
  refine ⟨?_, ?_⟩
  · rcases h0a with h | h <;> rcases h1a with h' | h'
    · exact Or.inl (by linarith)
    · exact Or.inr (Or.inl (by linarith))
    · exact Or.inr (Or.inr (Or.inl (by linarith)))
    · exact Or.inr (Or.inr (Or.inr (by linarith)))
  · rcases h0b with h | h <;> rcases h1b with h' | h'
    · exact Or.inl (by linarith)
    · exact Or.inr (Or.inl (by linarith))
    · exact Or.inr (Or.inr (Or.inl (by linarith)))
    · exact Or.inr (Or.inr (Or.inr (by linarith)))

theorem vol3_eq (a b c p : Point K 3) : vol3 a b c p =
    dot a (cross3 (b - a) (c - a)) + (-(cross3 (b - a) (c - a) 0)) * p 0 + (-(cross3 (b - a) (c - a) 1)) * p 1 +
      (-(cross3 (b - a) (c - a) 2)) * p 2 := by
  unfold vol3 dot
  rw [Fin.sum_univ_three, Fin.sum_univ_three]
  simp only [Pi.sub_apply]
  ring

theorem lin3_corner (A B C D : K) (bx : Box K 3) (p : Point K 3) (hp : bx.Mem p) :
    (∃ c ∈ corners3 bx, A + B * p 0 + C * p 1 + D * p 2 ≤ A + B * c 0 + C * c 1 + D * c 2) ∧
      ∃ c ∈ corners3 bx, A + B * c 0 + C * c 1 + D * c 2 ≤ A + B * p 0 + C * p 1 + D * p 2 := by
  obtain ⟨h0a, h0b⟩ := lin_pick B _ _ _ (hp 0).1 (hp 0).2
  obtain ⟨h1a, h1b⟩ := lin_pick C _ _ _ (hp 1).1 (hp 1).2
  obtain ⟨h2a, h2b⟩ := lin_pick D _ _ _ (hp 2).1 (hp 2).2
  have mem : ∀ x y z : K, (x = bx.lo 0 ∨ x = bx.hi 0) → (y = bx.lo 1 ∨ y = bx.hi 1) → (z = bx.lo 2 ∨ z = bx.hi 2) →
      (![x, y, z] : Point K 3) ∈ corners3 bx := by
    rintro x y z (rfl | rfl) (rfl | rfl) (rfl | rfl) <;> simp [corners3]
  constructor
  · obtain ⟨x, hx, hx'⟩ : ∃ x, (x = bx.lo 0 ∨ x = bx.hi 0) ∧ B * p 0 ≤ B * x :=
      h0a.elim (fun h => ⟨_, Or.inl rfl, h⟩) fun h => ⟨_, Or.inr rfl, h⟩
    obtain ⟨y, hy, hy'⟩ : ∃ x, (x = bx.lo 1 ∨ x = bx.hi 1) ∧ C * p 1 ≤ C * x :=
      h1a.elim (fun h => ⟨_, Or.inl rfl, h⟩) fun h => ⟨_, Or.inr rfl, h⟩
    obtain ⟨z, hz, hz'⟩ : ∃ x, (x = bx.lo 2 ∨ x = bx.hi 2) ∧ D * p 2 ≤ D * x :=
      h2a.elim (fun h => ⟨_, Or.inl rfl, h⟩) fun h => ⟨_, Or.inr rfl, h⟩
    refine ⟨![x, y, z], mem _ _ _ hx hy hz, ?_⟩
    show _ ≤ A + B * x + C * y + D * z
    linarith
  · obtain ⟨x, hx, hx'⟩ : ∃ x, (x = bx.lo 0 ∨ x = bx.hi 0) ∧ B * x ≤ B * p 0 :=
      h0b.elim (fun h => ⟨_, Or.inl rfl, h⟩) fun h => ⟨_, Or.inr rfl, h⟩
    obtain ⟨y, hy, hy'⟩ : ∃ x, (x = bx.lo 1 ∨ x = bx.hi 1) ∧ C * x ≤ C * p 1 :=
      h1b.elim (fun h => ⟨_, Or.inl rfl, h⟩) fun h => ⟨_, Or.inr rfl, h⟩
    obtain ⟨z, hz, hz'⟩ : ∃ x, (x = bx.lo 2 ∨ x = bx.hi 2) ∧ D * x ≤ D * p 2 :=
      h2b.elim (fun h => ⟨_, Or.inl rfl, h⟩) fun h => ⟨_, Or.inr rfl, h⟩
    refine ⟨![x, y, z], mem _ _ _ hx hy hz, ?_⟩
    show A + B * x + C * y + D * z ≤ _
    linarith

theorem facet3_corner (a b c : Point K 3) : CornerOK corners3 (facet3 a b c) := by
  intro bx p hp
  unfold facet3
  split
  · simp only [vol3_eq]
    exact lin3_corner _ _ _ _ bx p hp
  · simp only [vol3_eq]
    exact lin3_corner _ _ _ _ bx p hp

theorem volMax_le (f : Facet K d) (cs : List (Point K d)) (m : K) (x : K) :
    cs.foldl (fun m c => max m (f.vol c)) m ≤ x ↔ m ≤ x ∧ ∀ c ∈ cs, f.vol c ≤ x := by
  induction cs generalizing m with
  | nil => simp
  | cons c cs ih => simp [ih, and_assoc]

theorem volMax_nonpos (f : Facet K d) (cs : List (Point K d)) : volMax f cs ≤ 0 ↔ ∀ c ∈ cs, f.vol c ≤ 0 := by
  rw [volMax, volMax_le]
  exact and_iff_right (by norm_num)

theorem volMinNonpos_false (f : Facet K d) (cs : List (Point K d)) :
    volMinNonpos f cs = false ↔ ∀ c ∈ cs, 0 < f.vol c := by
  simp [volMinNonpos]

/-- What the loops of one facet cover. -/
theorem loops_spec (corners : Box K d → List (Point K d)) (pos : ℕ → Point K d) (f : Facet K d) (hc : CornerOK corners f)
    (ls : ℕ) (t : KdTree.Tree ℕ K d) (hs : KdTree.Sound pos ls t) :
    (∀ i ∈ t.items, 0 < f.vol (pos i) → i ∈ (loops corners pos f t).flatten) ∧
      (∀ i ∈ (loops corners pos f t).flatten, i ∈ t.items ∧ seesPt f (pos i) = true) ∧
      (t.items.Nodup → (loops corners pos f t).flatten.Nodup) := by
  induction t with
  | leaf b items =>
    obtain ⟨h1, h2, h3⟩ := hs
    rw [loops]
    by_cases hv : volMinNonpos f (corners b) = true
    · rw [if_pos hv]
      by_cases hm : volMax f (corners b) ≤ 0
      · rw [if_pos hm]
        refine ⟨fun i hi hpos => ?_, by simp, by simp⟩
        obtain ⟨c, hc1, hc2⟩ := (hc b _ (h3.1 i hi)).1
        exact absurd ((volMax_nonpos _ _).mp hm c hc1) (not_le.mpr (lt_of_lt_of_le hpos hc2))
      · rw [if_neg hm]
        refine ⟨fun i hi hpos => ?_, fun i hi => ?_, fun hn => ?_⟩
        · simp only [List.flatten_cons, List.flatten_nil, List.append_nil, List.mem_filter]
          exact ⟨hi, by simp [seesPt, hpos.le]⟩
        · simp only [List.flatten_cons, List.flatten_nil, List.append_nil, List.mem_filter] at hi
          exact hi
        · simp only [List.flatten_cons, List.flatten_nil, List.append_nil]
          exact List.Nodup.filter _ hn
    · rw [if_neg hv]
      have hv' := (volMinNonpos_false f _).mp (by simpa using hv)
      refine ⟨fun i hi _ => by simpa [KdTree.Tree.items] using hi, fun i hi => ?_, fun hn => ?_⟩
      · have hi' : i ∈ items := by simpa using hi
        refine ⟨hi', ?_⟩
        obtain ⟨c, hc1, hc2⟩ := (hc b _ (h3.1 i hi')).2
        simp [seesPt, ((hv' c hc1).trans_le hc2).le]
      · simpa [KdTree.Tree.items] using hn
  | node b l r ihl ihr =>
    obtain ⟨h1, h3, hl, hr⟩ := hs
    rw [loops]
    by_cases hv : volMinNonpos f (corners b) = true
    · rw [if_pos hv]
      by_cases hm : volMax f (corners b) ≤ 0
      · rw [if_pos hm]
        refine ⟨fun i hi hpos => ?_, by simp, by simp⟩
        obtain ⟨c, hc1, hc2⟩ := (hc b _ (h3.1 i hi)).1
        exact absurd ((volMax_nonpos _ _).mp hm c hc1) (not_le.mpr (lt_of_lt_of_le hpos hc2))
      · rw [if_neg hm]
        obtain ⟨a1, a2, a3⟩ := ihl hl
        obtain ⟨b1, b2, b3⟩ := ihr hr
        refine ⟨fun i hi hpos => ?_, fun i hi => ?_, fun hn => ?_⟩
        · rw [List.flatten_append, List.mem_append]
          rcases List.mem_append.mp hi with h | h
          · exact Or.inl (a1 i h hpos)
          · exact Or.inr (b1 i h hpos)
        · rw [List.flatten_append, List.mem_append] at hi
          rcases hi with h | h
          · exact ⟨List.mem_append_left _ (a2 i h).1, (a2 i h).2⟩
          · exact ⟨List.mem_append_right _ (b2 i h).1, (b2 i h).2⟩
        · obtain ⟨n1, n2, n3⟩ := List.nodup_append.mp hn
          rw [List.flatten_append, List.nodup_append]
          exact ⟨a3 n1, b3 n2, fun x hx y hy => n3 x (a2 x hx).1 y (b2 y hy).1⟩
    · rw [if_neg hv]
      have hv' := (volMinNonpos_false f _).mp (by simpa using hv)
      refine ⟨fun i hi _ => by simpa [KdTree.Tree.items] using hi, fun i hi => ?_, fun hn => ?_⟩
      · have hi' : i ∈ l.items ++ r.items := by simpa using hi
        refine ⟨hi', ?_⟩
        obtain ⟨c, hc1, hc2⟩ := (hc b _ (h3.1 i hi')).2
        simp [seesPt, ((hv' c hc1).trans_le hc2).le]
      · simpa [KdTree.Tree.items] using hn

end

/-! ### The flags -/

theorem step_cases (flag : ℕ → Bool) (t : Thread) :
    (∀ i, flag i = true → (t.step flag).1 i = true) ∧
      (∀ i, (t.step flag).1 i = true → flag i = true ∨ i ∈ t.todo.flatten) ∧
      (∀ i ∈ (t.step flag).2.todo.flatten, i ∈ t.todo.flatten) := by
  unfold Thread.step
  split
  · rename_i h
    exact ⟨fun i h => h, fun i h => Or.inl h, fun i h => h⟩
  · rename_i rest h
    refine ⟨fun i h => h, fun i h => Or.inl h, fun i hi => ?_⟩
    rw [h]
    simpa using hi
  · rename_i j js rest h
    split
    · refine ⟨fun i hi => ?_, fun i hi => ?_, fun i hi => ?_⟩
      · simp only [Function.update_apply]
        split <;> simp_all
      · simp only [Function.update_apply] at hi
        split at hi
        · rename_i e
          exact Or.inr (by rw [h]; simp [e])
        · exact Or.inl hi
      · rw [h]
        simp only [List.flatten_cons, List.mem_append, List.mem_cons] at hi ⊢
        exact hi.imp (fun h => Or.inr h) id
    · refine ⟨fun i hi => hi, fun i hi => Or.inl hi, fun i hi => ?_⟩
      rw [h]
      simp only [List.flatten_cons, List.mem_append, List.mem_cons] at hi ⊢
      exact hi.imp (fun h => Or.inr h) id

theorem run_mono (sched : List ℕ) (flag : ℕ → Bool) (ts : List Thread) (i : ℕ) (h : flag i = true) :
    (run sched flag ts).1 i = true := by
  induction sched generalizing flag ts with
  | nil => exact h
  | cons k sched ih =>
    rw [run]
    split
    · exact ih _ _ h
    · exact ih _ _ ((step_cases _ _).1 i h)

theorem run_sound (sched : List ℕ) (flag : ℕ → Bool) (ts : List Thread) (i : ℕ)
    (h : (run sched flag ts).1 i = true) : flag i = true ∨ ∃ t ∈ ts, i ∈ t.todo.flatten := by
  induction sched generalizing flag ts with
  | nil => exact Or.inl h
  | cons k sched ih =>
    rw [run] at h
    split at h
    · exact ih _ _ h
    · rename_i t ht
      have hmem := List.mem_of_getElem? ht
      rcases ih _ _ h with h' | ⟨t', h1, h2⟩
      · exact ((step_cases _ _).2.1 i h').imp id fun h => ⟨t, hmem, h⟩
      · rcases List.mem_or_eq_of_mem_set h1 with h1 | rfl
        · exact Or.inr ⟨t', h1, h2⟩
        · exact Or.inr ⟨t, hmem, (step_cases _ _).2.2 i h2⟩

theorem run_length (sched : List ℕ) (flag : ℕ → Bool) (ts : List Thread) :
    (run sched flag ts).2.length = ts.length := by
  induction sched generalizing flag ts with
  | nil => rfl
  | cons k sched ih =>
    rw [run]
    split
    · exact ih _ _
    · rw [ih, List.length_set]

/-- The elements that a thread will certainly flag: the first of every loop. -/
def Owed (t : Thread) (i : ℕ) : Prop :=
  (t.F = false ∧ ∃ is rest, t.todo = (i :: is) :: rest) ∨ ∃ L ∈ t.todo.tail, L.head? = some i

theorem owed_step (flag : ℕ → Bool) (t : Thread) (i : ℕ) (h : Owed t i) :
    (t.step flag).1 i = true ∨ Owed (t.step flag).2 i := by
  unfold Thread.step
  rcases h with ⟨hF, is, rest, ht⟩ | ⟨L, hL, hh⟩
  · rw [ht]
    simp only [hF]
    left
    split
    · simp
    · rename_i h
      simpa using h
  · split
    · rename_i e
      rw [e] at hL
      simp at hL
    · rename_i rest e
      rw [e] at hL
      right
      obtain ⟨x, L', e'⟩ : ∃ x L', rest = x :: L' := List.exists_cons_of_ne_nil (List.ne_nil_of_mem hL)
      subst e'
      rcases List.mem_cons.mp hL with rfl | hL
      · left
        cases L with
        | nil => simp at hh
        | cons y L =>
          simp only [List.head?_cons, Option.some.injEq] at hh
          subst hh
          exact ⟨rfl, _, _, rfl⟩
      · right
        exact ⟨L, hL, hh⟩
    · rename_i j js rest e
      rw [e] at hL
      right
      split
      · exact Or.inr ⟨L, hL, hh⟩
      · exact Or.inr ⟨L, hL, hh⟩

theorem run_owed (sched : List ℕ) (flag : ℕ → Bool) (ts : List Thread) (i : ℕ) (k : ℕ) (t : Thread) (hk : ts[k]? = some t)
    (h : Owed t i) (hdone : ∀ t ∈ (run sched flag ts).2, t.todo = []) : (run sched flag ts).1 i = true := by
  induction sched generalizing flag ts t with
  | nil =>
    have := hdone t (List.mem_of_getElem? hk)
    rcases h with ⟨_, _, _, h⟩ | ⟨L, hL, _⟩
    · rw [this] at h
      cases h
    · rw [this] at hL
      cases hL
  | cons j sched ih =>
    rw [run] at hdone ⊢
    split
    · rename_i e
      rw [e] at hdone
      exact ih _ _ _ hk h hdone
    · rename_i t' e
      rw [e] at hdone
      by_cases hjk : j = k
      · subst hjk
        rw [hk] at e
        cases e
        rcases owed_step flag t i h with h' | h'
        · exact run_mono _ _ _ _ h'
        · refine ih _ _ _ ?_ h' hdone
          rw [List.getElem?_set_self (List.getElem?_eq_some_iff.mp hk).1]
      · refine ih _ _ _ ?_ h hdone
        rw [List.getElem?_set_ne hjk]
        exact hk

/-- A thread none of whose elements is touched by another thread flags all of them. -/
theorem run_alone (sched : List ℕ) (flag : ℕ → Bool) (ts : List Thread) (k : ℕ) (t : Thread) (hk : ts[k]? = some t)
    (hF : t.F = false) (hn : t.todo.flatten.Nodup) (hclear : ∀ i ∈ t.todo.flatten, flag i = false)
    (hdisj : ∀ j t', ts[j]? = some t' → j ≠ k → ∀ i ∈ t'.todo.flatten, i ∉ t.todo.flatten)
    (hdone : ∀ t ∈ (run sched flag ts).2, t.todo = []) (i : ℕ) (hi : i ∈ t.todo.flatten) :
    (run sched flag ts).1 i = true := by
  induction sched generalizing flag ts t with
  | nil =>
    rw [hdone t (List.mem_of_getElem? hk)] at hi
    simp at hi
  | cons j sched ih =>
    rw [run] at hdone ⊢
    split
    · rename_i e
      rw [e] at hdone
      exact ih _ _ _ hk hF hn hclear hdisj hdone hi
    · rename_i t' e
      rw [e] at hdone
      have hlt := (List.getElem?_eq_some_iff.mp hk).1
      by_cases hjk : j = k
      · subst hjk
        rw [hk] at e
        cases e
        obtain ⟨F, todo⟩ := t
        simp only at hF
        subst hF
        have hsub := (step_cases flag ⟨false, todo⟩).2.2
        by_cases hi' : i ∈ ((Thread.step flag ⟨false, todo⟩).2).todo.flatten
        · refine ih _ _ _ (List.getElem?_set_self hlt) ?_ ?_ ?_ ?_ hdone hi'
          · unfold Thread.step
            split
            · rfl
            · rfl
            · rename_i x xs rest h
              simp only at h
              subst h
              have := hclear x (by simp)
              simp [this]
          · unfold Thread.step
            split
            · exact hn
            · rename_i rest h
              simp only at h
              subst h
              simpa using hn
            · rename_i x xs rest h
              simp only at h
              subst h
              have : (xs ++ rest.flatten).Nodup := by
                have := hn
                simp only [List.flatten_cons, List.cons_append, List.nodup_cons] at this
                exact this.2
              split <;> simpa using this
          · intro i hi
            by_contra hc
            have hc : (Thread.step flag ⟨false, todo⟩).1 i = true := by simpa using hc
            revert hc hi
            unfold Thread.step
            split
            · rename_i h
              intro hi hc
              have := hclear i hi
              simp_all
            · rename_i rest h
              simp only at h
              subst h
              intro hi hc
              have := hclear i (by simpa using hi)
              simp_all
            · rename_i x xs rest h
              simp only at h
              subst h
              have hx := hclear x (by simp)
              simp only [hx, if_true]
              intro hi2 hc
              have hne : i ≠ x := by
                intro he
                rw [he] at hi2
                simp only [List.flatten_cons, List.cons_append, List.nodup_cons] at hn
                exact hn.1 (by simpa using hi2)
              rw [Function.update_of_ne hne] at hc
              have := hclear i (by
                simp only [List.flatten_cons, List.mem_append] at hi2
                simp only [List.flatten_cons, List.mem_append, List.mem_cons]
                exact hi2.imp Or.inr id)
              simp_all
          · intro j' t' e hne y hy
            rw [List.getElem?_set_ne (Ne.symm hne)] at e
            exact fun hc => hdisj j' t' e hne y hy (hsub y hc)
        · apply run_mono
          revert hi'
          unfold Thread.step
          split
          · rename_i h
            simp only at h
            subst h
            simp at hi
          · rename_i rest h
            simp only at h
            subst h
            intro hi'
            exact absurd (by simpa using hi) hi'
          · rename_i x xs rest h
            simp only at h
            subst h
            have hx := hclear x (by simp)
            simp only [hx, if_true]
            intro hi'
            simp only [List.flatten_cons, List.mem_append] at hi'
            simp only [List.flatten_cons, List.mem_append, List.mem_cons] at hi
            have : i = x := by tauto
            subst this
            simp
      · have hstep := step_cases flag t'
        refine ih _ _ _ (by rw [List.getElem?_set_ne hjk]; exact hk) hF hn ?_ ?_ hdone hi
        · intro y hy
          by_contra hc
          have hc : (t'.step flag).1 y = true := by simpa using hc
          rcases hstep.2.1 y hc with h | h
          · rw [hclear y hy] at h
            cases h
          · exact hdisj j t' e hjk y h hy
        · intro j' t'' e' hne y hy
          by_cases hj' : j' = j
          · subst hj'
            rw [List.getElem?_set_self (List.getElem?_eq_some_iff.mp e).1] at e'
            cases e'
            exact hdisj j' t' e hne y (hstep.2.2 y hy)
          · rw [List.getElem?_set_ne (Ne.symm hj')] at e'
            exact hdisj j' t'' e' hne y hy

/-! ### Complete schedules exist -/

/-- Steps left in a thread. -/
def Thread.left (t : Thread) : ℕ := (t.todo.map fun L => L.length + 1).sum

theorem step_left (flag : ℕ → Bool) (t : Thread) (h : t.todo ≠ []) : (t.step flag).2.left + 1 = t.left := by
  unfold Thread.step Thread.left
  split
  · contradiction
  · rename_i rest e
    rw [e]
    simp
    omega
  · rename_i i is rest e
    rw [e]
    split <;> simp <;> omega

theorem run_exists (n : ℕ) (flag : ℕ → Bool) (ts : List Thread) (hn : (ts.map Thread.left).sum = n) :
    ∃ sched, ∀ t ∈ (run sched flag ts).2, t.todo = [] := by
  induction n generalizing flag ts with
  | zero =>
    refine ⟨[], fun t ht => ?_⟩
    have : t.left = 0 := by
      have := List.sum_eq_zero_iff.mp hn t.left (List.mem_map_of_mem ht)
      exact this
    unfold Thread.left at this
    cases h : t.todo with
    | nil => rfl
    | cons L rest =>
      rw [h] at this
      simp at this
  | succ n ih =>
    by_cases hall : ∀ t ∈ ts, t.todo = []
    · exact ⟨[], hall⟩
    · push Not at hall
      obtain ⟨t, ht, hne⟩ := hall
      obtain ⟨k, hk⟩ := List.getElem?_of_mem ht
      have hlt := (List.getElem?_eq_some_iff.mp hk).1
      obtain ⟨sched, hs⟩ := ih (t.step flag).1 (ts.set k (t.step flag).2) (by
        have e1 : ts = ts.take k ++ t :: ts.drop (k + 1) := by
          have := List.getElem?_eq_some_iff.mp hk
          rw [← this.2, List.cons_getElem_drop_succ, List.take_append_drop]
        have e2 : ts.set k (t.step flag).2 = ts.take k ++ (t.step flag).2 :: ts.drop (k + 1) := by
          rw [List.set_eq_take_append_cons_drop, if_pos hlt]
        rw [e1] at hn
        rw [e2]
        have := step_left flag t hne
        simp only [List.map_append, List.map_cons, List.sum_append, List.sum_cons] at hn ⊢
        omega)
      refine ⟨k :: sched, ?_⟩
      rw [run, hk]
      exact hs

end Verif.SampleHull
