import Verif.RandInc.Geo

set_option linter.unusedSectionVars false
set_option linter.unusedVariables false

/-!
With exact areas (`eps = 0`) the ring is the boundary of the hull of the vertices that see nothing.
-/

namespace Verif.RandInc

open Verif Verif.Hull2d

variable {K : Type} [Field K] [LinearOrder K] [IsStrictOrderedRing K]

/-- The vertices of the ring. -/
def RV (C : Fin 4 → List ℕ) (h : ℕ → Option Fct) (t : ℕ) : Prop :=
  ∃ i, ∃ x ∈ C i, ∃ f, h x = some f ∧ (f.p1 = t ∨ f.p2 = t)

/-- Their positions. -/
def RS (pos : ℕ → Point K 2) (C : Fin 4 → List ℕ) (h : ℕ → Option Fct) : Set (Point K 2) := {p | ∃ t, RV C h t ∧ pos t = p}

/-- Direction of a facet. -/
def dirF (pos : ℕ → Point K 2) (f : Fct) : Point K 2 := pos f.p2 - pos f.p1

/-- Invariant of the ring for `eps = 0`. -/
structure Conv (pos : ℕ → Point K 2) (n : ℕ) (Q : Fin 4 → ℕ) (C : Fin 4 → List ℕ) (s : St) : Prop where
  ext : ∀ i, ∀ v < n, 0 ≤ rx i (pos v - pos (Q i))
  mono : ∀ i, ∀ x ∈ C i, ∀ f, s.heap x = some f → Dir i (dirF pos f)
  nz : ∀ i, ∀ x ∈ C i, ∀ f, s.heap x = some f → dirF pos f ≠ 0 ∨ C i = [x]
  cvx : ∀ t, RV C s.heap t → ∀ i, ∀ x ∈ C i, ∀ f, s.heap x = some f → triArea (pos f.p1) (pos f.p2) (pos t) ≤ 0
  inn : ∀ v < n, s.see v = none → pos v ∈ convexHull K (RS pos C s.heap)

/-- The direction along the side of the bounding box at `Q i`. -/
def up (i : Fin 4) : Point K 2 := match i with
  | 0 => ![0, 1]
  | 1 => ![1, 0]
  | 2 => ![0, -1]
  | 3 => ![-1, 0]

theorem up_rx (i : Fin 4) : rx i (up i : Point K 2) = 0 ∧ ry i (up i : Point K 2) = 1 := by
  fin_cases i <;> simp [rx, ry, up]

theorem up_next (i : Fin 4) : rx i (up (i + 1) : Point K 2) = 1 ∧ ry i (up (i + 1) : Point K 2) = 0 := by
  fin_cases i <;> simp [rx, ry, up]

theorem path_dir {h : ℕ → Option Fct} {pos : ℕ → Point K 2} {i : Fin 4} {u w : ℕ} {l : List ℕ} (hp : Path h u l w)
    (hd : ∀ x ∈ l, ∀ f, h x = some f → Dir i (dirF pos f)) : Dir i (pos w - pos u) := by
  induction l generalizing u with
  | nil =>
    simp only [Path] at hp
    subst hp
    rw [sub_self]
    have : rx i (0 : Point K 2) = 0 ∧ ry i (0 : Point K 2) = 0 := by fin_cases i <;> simp [rx, ry]
    exact ⟨this.1.ge, this.2.ge⟩
  | cons x l ih =>
    obtain ⟨f, f1, f2, f3⟩ := hp
    have h1 := ih f3 fun y hy => hd y (by simp [hy])
    have h2 := hd x (by simp) f f1
    have := dir_add i h2 h1
    unfold dirF at this
    rw [f2] at this
    rwa [show pos f.p2 - pos u + (pos w - pos f.p2) = pos w - pos u by abel] at this

section
variable {pos : ℕ → Point K 2} {n : ℕ} {Q : Fin 4 → ℕ} {C : Fin 4 → List ℕ} {s : St}

/-- Facets of a chain turn right. -/
theorem Conv.turn {eps : K} (hI : Inv eps pos n Q C s) (hC : Conv pos n Q C s) {i : Fin 4} {L R : List ℕ} {x y : ℕ} (h : C i = L ++ x :: R) (hy : y ∈ R)
    {fx fy : Fct} (hfx : s.heap x = some fx) (hfy : s.heap y = some fy) : cr (dirF pos fx) (dirF pos fy) ≤ 0 := by
  have hp := hI.path i
  have hxC : x ∈ C i := by rw [h]; simp
  have hyC : y ∈ C i := by rw [h]; simp [hy]
  rw [h, path_append] at hp
  obtain ⟨m, -, g, g1, g2, hp⟩ := hp
  rw [hfx, Option.some.injEq] at g1
  subst g1
  obtain ⟨R1, R2, rfl⟩ := List.append_of_mem hy
  rw [path_append] at hp
  obtain ⟨m', hp1, g', g3, g4, -⟩ := hp
  rw [hfy, Option.some.injEq] at g3
  subst g3
  subst g4
  have hY : Dir i (pos fy.p1 - pos fx.p2) := path_dir hp1 fun z hz => hC.mono i z (by rw [h]; simp [hz])
  have c1 := hC.cvx fy.p1 ⟨i, y, hyC, fy, hfy, .inl rfl⟩ i x hxC fx hfx
  have c2 := hC.cvx fy.p2 ⟨i, y, hyC, fy, hfy, .inr rfl⟩ i x hxC fx hfx
  have c3 := hC.cvx fx.p2 ⟨i, x, hxC, fx, hfx, .inr rfl⟩ i y hyC fy hfy
  rw [area_mid] at c1 c2
  rw [area_cr] at c3
  by_cases h0 : pos fy.p1 - pos fx.p2 = 0
  · have : pos fy.p2 - pos fx.p2 = dirF pos fy + (pos fy.p1 - pos fx.p2) := by unfold dirF; abel
    rw [this, h0, add_zero] at c2
    exact c2
  · refine cr_trans i (hC.mono i x hxC fx hfx) hY (hC.mono i y hyC fy hfy) h0 c1 ?_
    have : pos fx.p2 - pos fy.p1 = -(pos fy.p1 - pos fx.p2) := by abel
    rw [this] at c3
    rw [cr_swap]
    unfold dirF
    have e : ∀ a b : Point K 2, cr a (-b) = -cr a b := fun a b => by unfold cr; simp only [Pi.neg_apply]; ring
    rw [e] at c3
    exact c3

variable {v : ℕ} {k : Fin 4} {A M B : List ℕ} {a e : ℕ} {fa fs fe : Fct} {x0 : ℕ}

theorem vis0 {f : Fct} {v : ℕ} : visible (0 : K) pos f v = true ↔ 0 < triArea (pos f.p1) (pos f.p2) (pos v) := by
  unfold visible; exact decide_eq_true_iff

theorem hid0 {f : Fct} {v : ℕ} : visible (0 : K) pos f v = false ↔ triArea (pos f.p1) (pos f.p2) (pos v) ≤ 0 := by
  unfold visible; rw [decide_eq_false_iff_not, not_lt]

theorem RV.lt {eps : K} (hI : Inv eps pos n Q C s) {t : ℕ} (h : RV C s.heap t) : t < n := by
  obtain ⟨i, x, hx, f, hf, h⟩ := h
  have := hI.fac i x hx f hf
  rcases h with rfl | rfl
  · exact this.1
  · exact this.2.1

/-- Facets of the run and of the rest of its chain are not degenerate. -/
theorem Ins.nz (h : Ins (0 : K) pos n Q C s v k A M B a e fa fs fe x0) (hC : Conv pos n Q C s) {x : ℕ} (hx : x ∈ C (k + 1)) {f : Fct}
    (hf : s.heap x = some f) : dirF pos f ≠ 0 := by
  rcases hC.nz (k + 1) x hx f hf with h1 | h1
  · exact h1
  · have hm := (h.mlt x0 h.mem).1
    rw [h1, List.mem_singleton] at hm
    obtain ⟨g, g1, g2⟩ := h.run.vis.vis x0 h.mem
    rw [hm, hf, Option.some.injEq] at g1
    subst g1
    rw [vis0, area_cr] at g2
    intro h0
    unfold dirF at h0
    rw [h0] at g2
    unfold cr at g2
    simp at g2

/-- The last facet of the run. -/
theorem Ins.last (h : Ins (0 : K) pos n Q C s v k A M B a e fa fs fe x0) :
    ∃ fm, s.heap (M.getLast h.run.vis.ne) = some fm ∧ fm.p2 = fe.p1 := by
  have hp := (h.ends (le_refl _)).2.1
  rw [← List.dropLast_append_getLast (l := M) h.run.vis.ne, path_append] at hp
  obtain ⟨u, -, f, f1, f2, f3⟩ := hp
  exact ⟨f, f1, f3⟩

/-- A direction before the run. -/
theorem Ins.left (h : Ins (0 : K) pos n Q C s v k A M B a e fa fs fe x0) (hC : Conv pos n Q C s) :
    ∃ da : Point K 2, Dir (k + 1) da ∧ da ≠ 0 ∧ cr da (dirF pos fs) ≤ 0 ∧ cr da (pos v - pos fs.p1) ≤ 0 ∧
      (∀ t, RV C s.heap t → cr da (pos t - pos fs.p1) ≤ 0) ∧
      ∀ x ∈ A, ∀ f, s.heap x = some f → cr (dirF pos f) da ≤ 0 := by
  have hI := h.inv
  have hvn := (hI.see v x0 h.see).1
  have hhead := (h.mlt _ (List.head_mem h.run.vis.ne)).1
  rcases List.eq_nil_or_concat A with rfl | ⟨A1, a', rfl⟩
  · have hu : fs.p1 = Q (k + 1) := by
      have := (h.ends (le_refl _)).1
      simp only [Path] at this
      exact this.symm
    have hcr : ∀ z : Point K 2, cr (up (k + 1)) z = -rx (k + 1) z := by
      intro z
      rw [cr_rot (k + 1), (up_rx (k + 1)).1, (up_rx (k + 1)).2]; ring
    refine ⟨up (k + 1), ⟨(up_rx _).1.ge, by rw [(up_rx (k + 1)).2]; exact zero_le_one⟩, ?_, ?_, ?_, ?_, by simp⟩
    · intro h0
      have := (up_rx (K := K) (k + 1)).2
      rw [h0] at this
      generalize k + 1 = i at this
      fin_cases i <;> simp [ry] at this
    · rw [hcr]; exact neg_nonpos.mpr (hC.mono _ _ hhead fs h.hs).1
    · rw [hcr, hu]; exact neg_nonpos.mpr (hC.ext _ v hvn)
    · intro t ht
      rw [hcr, hu]; exact neg_nonpos.mpr (hC.ext _ t (ht.lt hI))
  · rw [List.concat_eq_append] at *
    obtain ⟨A', hA'⟩ := h.run.before
    have haa : a' = a := by
      rw [← List.append_assoc] at hA'
      have := List.append_inj_right' hA' rfl
      rw [List.cons.injEq] at this
      exact this.1
    subst haa
    have haC : a' ∈ C (k + 1) := by rw [h.run.split]; simp
    have hfa2 : fa.p2 = fs.p1 := by
      have hp := (h.ends (le_refl _)).1
      rw [path_append] at hp
      obtain ⟨m, -, g, g1, g2, g3⟩ := hp
      rw [h.ha, Option.some.injEq] at g1
      subst g1
      exact g3
    refine ⟨dirF pos fa, hC.mono _ _ haC fa h.ha, h.nz hC haC h.ha, ?_, ?_, ?_, ?_⟩
    · have := hC.cvx fs.p2 ⟨k + 1, _, hhead, fs, h.hs, .inr rfl⟩ (k + 1) a' haC fa h.ha
      rw [area_mid, hfa2] at this
      unfold dirF
      rw [hfa2]
      exact this
    · obtain ⟨g, g1, g2⟩ := h.run.vis.nva
      rw [h.ha, Option.some.injEq] at g1
      subst g1
      rw [hid0, area_mid] at g2
      unfold dirF
      rw [← hfa2]
      exact g2
    · intro t ht
      have := hC.cvx t ht (k + 1) a' haC fa h.ha
      rw [area_mid] at this
      unfold dirF
      rw [← hfa2]
      exact this
    · intro x hx f hf
      rcases List.mem_append.mp hx with hx | hx
      · obtain ⟨L, R, rfl⟩ := List.append_of_mem hx
        refine hC.turn hI (i := k + 1) (L := L) (R := R ++ [a'] ++ M ++ B) (x := x) (y := a') ?_ (by simp) hf h.ha
        rw [h.run.split]; simp
      · rw [List.mem_singleton] at hx
        subst hx
        rw [h.ha, Option.some.injEq] at hf
        subst hf
        unfold cr
        apply le_of_eq; ring

/-- A direction after the run. -/
theorem Ins.right (h : Ins (0 : K) pos n Q C s v k A M B a e fa fs fe x0) (hC : Conv pos n Q C s) {fm : Fct}
    (hfm : s.heap (M.getLast h.run.vis.ne) = some fm) (hfm2 : fm.p2 = fe.p1) :
    ∃ db : Point K 2, Dir (k + 1) db ∧ db ≠ 0 ∧ cr (dirF pos fm) db ≤ 0 ∧ cr db (pos v - pos fe.p1) ≤ 0 ∧
      (∀ t, RV C s.heap t → cr db (pos t - pos fe.p1) ≤ 0) ∧
      ∀ x ∈ B, ∀ f, s.heap x = some f → cr db (dirF pos f) ≤ 0 := by
  have hI := h.inv
  have hvn := (hI.see v x0 h.see).1
  have hlast := (h.mlt _ (List.getLast_mem h.run.vis.ne)).1
  cases B with
  | nil =>
    have hw : fe.p1 = Q (k + 1 + 1) := by
      have := (h.ends (le_refl _)).2.2
      simp only [Path] at this
      exact this
    have hcr : ∀ z : Point K 2, cr (up (k + 1 + 1)) z = ry (k + 1) z := by
      intro z
      rw [cr_rot (k + 1), (up_next (k + 1)).1, (up_next (k + 1)).2]; ring
    have hext : ∀ t < n, ry (k + 1) (pos t - pos (Q (k + 1 + 1))) ≤ 0 := by
      intro t ht
      have := hC.ext (k + 1 + 1) t ht
      rw [rx_succ] at this
      linarith
    refine ⟨up (k + 1 + 1), ⟨by rw [(up_next (k + 1)).1]; exact zero_le_one, (up_next _).2.ge⟩, ?_, ?_, ?_, ?_, by simp⟩
    · intro h0
      have := (up_next (K := K) (k + 1)).1
      rw [h0] at this
      generalize k + 1 = i at this
      fin_cases i <;> simp [rx] at this
    · rw [cr_swap, hcr]; exact neg_nonpos.mpr (hC.mono _ _ hlast fm hfm).2
    · rw [hcr, hw]; exact hext v hvn
    · intro t ht
      rw [hcr, hw]; exact hext t (ht.lt hI)
  | cons e' B1 =>
    obtain ⟨B', hB'⟩ := h.run.after
    have hee : e' = e := by
      rw [List.cons_append, List.cons.injEq] at hB'
      exact hB'.1
    subst hee
    have heC : e' ∈ C (k + 1) := by rw [h.run.split]; simp
    refine ⟨dirF pos fe, hC.mono _ _ heC fe h.he, h.nz hC heC h.he, ?_, ?_, ?_, ?_⟩
    · have := hC.cvx fe.p2 ⟨k + 1, _, heC, fe, h.he, .inr rfl⟩ (k + 1) _ hlast fm hfm
      rw [area_mid, hfm2] at this
      unfold dirF
      rw [hfm2]
      exact this
    · obtain ⟨g, g1, g2⟩ := h.run.vis.nve
      rw [h.he, Option.some.injEq] at g1
      subst g1
      rw [hid0, area_cr] at g2
      exact g2
    · intro t ht
      have := hC.cvx t ht (k + 1) e' heC fe h.he
      rw [area_cr] at this
      exact this
    · intro x hx f hf
      rcases List.mem_cons.mp hx with rfl | hx
      · rw [h.he, Option.some.injEq] at hf
        subst hf
        unfold cr
        apply le_of_eq; ring
      · refine hC.turn hI (i := k + 1) (L := A ++ M) (R := B1) (x := e') (y := x) ?_ hx h.he hf
        rw [h.run.split]

end

end Verif.RandInc
