import Mathlib.Tactic.NormNum
import Mathlib.Tactic.GCongr
import Verif.Morton.FloatModel
import Verif.Morton.Props

set_option linter.unusedSectionVars false
set_option linter.unusedVariables false

/-!
Property C104: the Morton sort in rounded arithmetic.
-/

namespace Verif.Morton

open Verif.Float

variable {α : Type} {d : ℕ} {u : ℝ} {fl : ℝ → ℝ} {pos : α → Fin d → ℝ}

theorem extMin_spec (p : α) (P : List α) (hp : p ∈ P) (i : Fin d) :
    IsLeast {x | ∃ q ∈ P, pos q i = x} (extMin pos p P i) := by
  have h := foldl_min_isLeast (fun q => pos q i) P (pos p i)
  rwa [Set.insert_eq_of_mem (show pos p i ∈ {x | ∃ q ∈ P, pos q i = x} from ⟨p, hp, rfl⟩)] at h

theorem extMax_spec (p : α) (P : List α) (hp : p ∈ P) (i : Fin d) :
    IsGreatest {x | ∃ q ∈ P, pos q i = x} (extMax pos p P i) := by
  have h := foldl_max_isGreatest (fun q => pos q i) P (pos p i)
  rwa [Set.insert_eq_of_mem (show pos p i ∈ {x | ∃ q ∈ P, pos q i = x} from ⟨p, hp, rfl⟩)] at h

theorem fl_lower (hf : IsRounding u fl) {x : ℝ} (hx : 0 ≤ x) : (1 - u) * x ≤ fl x := by
  have := (abs_le.1 (hf.err x)).1
  rw [abs_of_nonneg hx] at this
  linarith

theorem fl_upper (hf : IsRounding u fl) {x : ℝ} (hx : 0 ≤ x) : fl x ≤ (1 + u) * x := by
  have := (abs_le.1 (hf.err x)).2
  rw [abs_of_nonneg hx] at this
  linarith

/-- The largest computed span is the computed span of two points, and no computed offset exceeds it. -/
theorem maxSpanFl_spec (hf : IsRounding u fl) (hu : u < 1) (p : α) (P : List α) (hp : p ∈ P)
    (hne : ∃ a ∈ P, ∃ b ∈ P, pos a ≠ pos b) :
    (∃ x ∈ P, ∃ y ∈ P, ∃ j, maxSpanFl fl pos p P = fl (pos x j - pos y j) ∧ 0 < pos x j - pos y j) ∧
      0 < maxSpanFl fl pos p P ∧
      ∀ q ∈ P, ∀ i, fl (pos q i - extMin pos p P i) ≤ maxSpanFl fl pos p P := by
  have h := foldl_max_isGreatest (fun i => fl (extMax pos p P i - extMin pos p P i)) (List.finRange d) 0
  have hle : ∀ q ∈ P, ∀ i, fl (pos q i - extMin pos p P i) ≤ maxSpanFl fl pos p P := by
    intro q hq i
    refine le_trans (hf.mono ?_) (h.2 (Or.inr ⟨i, List.mem_finRange i, rfl⟩))
    have := (extMax_spec (pos := pos) p P hp i).2 ⟨q, hq, rfl⟩
    linarith
  have hpos : 0 < maxSpanFl fl pos p P := by
    obtain ⟨a, ha, b, hb, hab⟩ := hne
    obtain ⟨i, hi⟩ := Function.ne_iff.1 hab
    have key : ∀ q ∈ P, extMin pos p P i < pos q i → 0 < maxSpanFl fl pos p P := by
      intro q hq hlt
      refine lt_of_lt_of_le ?_ (hle q hq i)
      have := fl_lower hf (x := pos q i - extMin pos p P i) (by linarith)
      nlinarith
    have h1 := (extMin_spec (pos := pos) p P hp i).2 ⟨a, ha, rfl⟩
    have h2 := (extMin_spec (pos := pos) p P hp i).2 ⟨b, hb, rfl⟩
    rcases lt_or_gt_of_ne hi with hlt | hlt
    · exact key b hb (lt_of_le_of_lt h1 hlt)
    · exact key a ha (lt_of_le_of_lt h2 hlt)
  refine ⟨?_, hpos, hle⟩
  rcases h.1 with h0 | ⟨j, -, hj⟩
  · exact absurd h0 hpos.ne'
  · obtain ⟨x, hx, ex⟩ := (extMax_spec (pos := pos) p P hp j).1
    obtain ⟨y, hy, ey⟩ := (extMin_spec (pos := pos) p P hp j).1
    refine ⟨x, hx, y, hy, j, ?_, ?_⟩
    · rw [ex, ey]
      exact hj.symm
    · by_contra hno
      have h2 : fl (pos x j - pos y j) ≤ 0 := by
        rw [← hf.zero]
        exact hf.mono (not_lt.1 hno)
      rw [ex, ey] at h2
      rw [hj] at h2
      exact absurd h2 (not_le.2 hpos)

theorem boxSizeFl_bounds (hf : IsRounding u fl) (hu0 : 0 ≤ u) (hu : u < 1) {p : α} {P : List α}
    (hM : 0 < maxSpanFl fl pos p P) :
    (1 - u) ^ 3 * (101 / 100) * maxSpanFl fl pos p P / 65535 ≤ boxSizeFl fl pos p P ∧
      boxSizeFl fl pos p P ≤ (1 + u) ^ 3 * (101 / 100) * maxSpanFl fl pos p P / 65535 := by
  have e : ((maxRange : ℕ) : ℝ) = 65535 := by
    unfold maxRange
    norm_num
  unfold boxSizeFl
  rw [e]
  generalize maxSpanFl fl pos p P = M at hM
  have c1 := fl_lower hf (x := 101 / 100) (by norm_num)
  have c2 := fl_upper hf (x := 101 / 100) (by norm_num)
  have c0 : 0 ≤ fl (101 / 100) := hf.nonneg (by norm_num)
  have hu1 : 0 ≤ 1 - u := by linarith
  have hu2 : 0 ≤ 1 + u := by linarith
  have d1 := fl_lower hf (x := fl (101 / 100) * M) (by positivity)
  have d2 := fl_upper hf (x := fl (101 / 100) * M) (by positivity)
  have d0 : 0 ≤ fl (fl (101 / 100) * M) := hf.nonneg (by positivity)
  have e1 := fl_lower hf (x := fl (fl (101 / 100) * M) / 65535) (by positivity)
  have e2 := fl_upper hf (x := fl (fl (101 / 100) * M) / 65535) (by positivity)
  constructor
  · refine le_trans ?_ e1
    have : (1 - u) * (((1 - u) * ((1 - u) * (101 / 100) * M)) / 65535) ≤ (1 - u) * (fl (fl (101 / 100) * M) / 65535) := by
      gcongr
      refine le_trans ?_ d1
      gcongr
    linarith
  · refine le_trans e2 ?_
    have : (1 + u) * (fl (fl (101 / 100) * M) / 65535) ≤ (1 + u) * (((1 + u) * ((1 + u) * (101 / 100) * M)) / 65535) := by
      gcongr
      refine le_trans d2 ?_
      gcongr
    linarith

theorem cube_lower (hu0 : 0 ≤ u) (hu : u ≤ 1 / 1000) : (1 : ℝ) + 69 / 10000 ≤ (1 - u) ^ 3 * (101 / 100) := by
  have h : (1 - 1 / 1000 : ℝ) ^ 3 ≤ (1 - u) ^ 3 := by
    have : (1 : ℝ) - 1 / 1000 ≤ 1 - u := by linarith
    gcongr
  norm_num at h ⊢
  linarith

/-- The quotient whose floor is the cell. -/
noncomputable def quo (fl : ℝ → ℝ) (pos : α → Fin d → ℝ) (p : α) (P : List α) (q : α) (i : Fin d) : ℝ :=
  fl (fl (pos q i - extMin pos p P i) / boxSizeFl fl pos p P)

theorem boxSizeFl_pos (hf : IsRounding u fl) (hu0 : 0 ≤ u) (hu : u ≤ 1 / 1000) {p : α} {P : List α}
    (hM : 0 < maxSpanFl fl pos p P) : 0 < boxSizeFl fl pos p P ∧
      maxSpanFl fl pos p P / boxSizeFl fl pos p P * (1 + 69 / 10000) ≤ 65535 := by
  have h := (boxSizeFl_bounds (pos := pos) hf hu0 (by linarith) hM).1
  have hc := cube_lower hu0 hu
  have h2 : (1 + 69 / 10000) * maxSpanFl fl pos p P / 65535 ≤ boxSizeFl fl pos p P := by
    refine le_trans ?_ h
    gcongr
  have hb : 0 < boxSizeFl fl pos p P := lt_of_lt_of_le (by positivity) h2
  refine ⟨hb, ?_⟩
  rw [div_mul_eq_mul_div, div_le_iff₀ hb]
  linarith

theorem quo_bounds (hf : IsRounding u fl) (hu0 : 0 ≤ u) (hu : u ≤ 1 / 1000) {p : α} {P : List α} (hp : p ∈ P)
    (hne : ∃ a ∈ P, ∃ b ∈ P, pos a ≠ pos b) {q : α} (hq : q ∈ P) (i : Fin d) :
    0 ≤ quo fl pos p P q i ∧ quo fl pos p P q i < 65536 := by
  obtain ⟨-, hM, hle⟩ := maxSpanFl_spec hf (by linarith) p P hp hne
  obtain ⟨hb, hr⟩ := boxSizeFl_pos (pos := pos) hf hu0 hu hM
  have h0 : 0 ≤ fl (pos q i - extMin pos p P i) :=
    hf.nonneg (sub_nonneg.2 ((extMin_spec (pos := pos) p P hp i).2 ⟨q, hq, rfl⟩))
  have h1 : 0 ≤ fl (pos q i - extMin pos p P i) / boxSizeFl fl pos p P := by positivity
  refine ⟨hf.nonneg h1, ?_⟩
  have h2 := fl_upper hf h1
  have h3 : fl (pos q i - extMin pos p P i) / boxSizeFl fl pos p P ≤ maxSpanFl fl pos p P / boxSizeFl fl pos p P := by
    gcongr
    exact hle q hq i
  have h4 : (1 + u) * (fl (pos q i - extMin pos p P i) / boxSizeFl fl pos p P) ≤
      (1 + 69 / 10000) * (maxSpanFl fl pos p P / boxSizeFl fl pos p P) := by
    gcongr
    linarith
  unfold quo
  linarith

theorem cellsFl_eq (hf : IsRounding u fl) (hu0 : 0 ≤ u) (hu : u ≤ 1 / 1000) {p : α} {P : List α} (hp : p ∈ P)
    (hne : ∃ a ∈ P, ∃ b ∈ P, pos a ≠ pos b) {q : α} (hq : q ∈ P) (i : Fin d) :
    cellsFl fl pos p P q i = .ok ⌊quo fl pos p P q i⌋.toNat ∧ ⌊quo fl pos p P q i⌋.toNat < 2 ^ 16 := by
  obtain ⟨-, hM, -⟩ := maxSpanFl_spec hf (by linarith) p P hp hne
  obtain ⟨hb, -⟩ := boxSizeFl_pos (pos := pos) hf hu0 hu hM
  obtain ⟨h1, h2⟩ := quo_bounds hf hu0 hu hp hne hq i
  have h3 : ⌊quo fl pos p P q i⌋ < 65536 := Int.floor_lt.2 (by exact_mod_cast h2)
  refine ⟨?_, by omega⟩
  unfold cellsFl cellFl
  unfold quo at h1
  rw [if_neg hb.ne', if_neg (not_lt.2 h1)]
  rfl

theorem quo_mono (hf : IsRounding u fl) (hu0 : 0 ≤ u) (hu : u ≤ 1 / 1000) {p : α} {P : List α} (hp : p ∈ P)
    (hne : ∃ a ∈ P, ∃ b ∈ P, pos a ≠ pos b) {a b : α} {i : Fin d} (h : pos a i ≤ pos b i) :
    ⌊quo fl pos p P a i⌋.toNat ≤ ⌊quo fl pos p P b i⌋.toNat := by
  obtain ⟨-, hM, -⟩ := maxSpanFl_spec hf (by linarith) p P hp hne
  obtain ⟨hb, -⟩ := boxSizeFl_pos (pos := pos) hf hu0 hu hM
  refine Int.toNat_le_toNat (Int.floor_mono (hf.mono ?_))
  gcongr
  exact hf.mono (by linarith)

/-- Points of one cell are close, compared with the extent of the input. -/
theorem quo_close (hf : IsRounding u fl) (hu0 : 0 ≤ u) (hu : u ≤ 1 / 2 ^ 30) {p : α} {P : List α} (hp : p ∈ P)
    (hne : ∃ a ∈ P, ∃ b ∈ P, pos a ≠ pos b) :
    ∃ x ∈ P, ∃ y ∈ P, ∃ j, ∀ a ∈ P, ∀ b ∈ P, ∀ i,
      ⌊quo fl pos p P a i⌋.toNat = ⌊quo fl pos p P b i⌋.toNat →
        |pos a i - pos b i| ≤ (pos x j - pos y j) / 64000 := by
  have hu' : u ≤ 1 / 1000 := le_trans hu (by norm_num)
  obtain ⟨⟨x, hx, y, hy, j, ew, hw⟩, hM, hle⟩ := maxSpanFl_spec hf (by linarith) p P hp hne
  refine ⟨x, hx, y, hy, j, ?_⟩
  obtain ⟨hb, hr⟩ := boxSizeFl_pos (pos := pos) hf hu0 hu' hM
  have hbu := (boxSizeFl_bounds (pos := pos) hf hu0 (by linarith) hM).2
  have hMw := fl_upper hf hw.le
  rw [← ew] at hMw
  -- one direction is enough
  have key : ∀ a ∈ P, ∀ b ∈ P, ∀ i, ⌊quo fl pos p P a i⌋.toNat = ⌊quo fl pos p P b i⌋.toNat →
      pos a i - pos b i ≤ (pos x j - pos y j) / 64000 := by
    intro a ha b hb' i he
    have ha0 := (quo_bounds hf hu0 hu' hp hne ha i).1
    have hb0 := (quo_bounds hf hu0 hu' hp hne hb' i).1
    have e1 : ⌊quo fl pos p P a i⌋ = ⌊quo fl pos p P b i⌋ := by
      have h1 := Int.floor_nonneg.2 ha0
      have h2 := Int.floor_nonneg.2 hb0
      omega
    have f1 := Int.lt_floor_add_one (quo fl pos p P a i)
    have f2 := Int.floor_le (quo fl pos p P b i)
    rw [e1] at f1
    have hq : quo fl pos p P a i ≤ quo fl pos p P b i + 1 := by linarith
    have xa : 0 ≤ pos a i - extMin pos p P i := sub_nonneg.2 ((extMin_spec (pos := pos) p P hp i).2 ⟨a, ha, rfl⟩)
    have xb : 0 ≤ pos b i - extMin pos p P i := sub_nonneg.2 ((extMin_spec (pos := pos) p P hp i).2 ⟨b, hb', rfl⟩)
    have ya := fl_lower hf xa
    have yb := fl_upper hf xb
    have ya' := hle a ha i
    have yb' := hle b hb' i
    have yb2 := fl_lower hf xb
    have za0 := hf.nonneg xa
    have zb0 := hf.nonneg xb
    unfold quo at hq
    generalize fl (pos a i - extMin pos p P i) = A at *
    generalize fl (pos b i - extMin pos p P i) = B at *
    generalize boxSizeFl fl pos p P = c at *
    generalize maxSpanFl fl pos p P = M at *
    have qa := fl_lower hf (x := A / c) (by positivity)
    have qb := fl_upper hf (x := B / c) (by positivity)
    have h1 : (1 - u) * (A / c) ≤ (1 + u) * (B / c) + 1 := by linarith
    have h2 : (1 - u) * A ≤ (1 + u) * B + c := by
      have := mul_le_mul_of_nonneg_right h1 hb.le
      have eA : (1 - u) * (A / c) * c = (1 - u) * A := by field_simp
      have eB : ((1 + u) * (B / c) + 1) * c = (1 + u) * B + c := by field_simp
      rwa [eA, eB] at this
    have hdiff : pos a i - pos b i = (pos a i - extMin pos p P i) - (pos b i - extMin pos p P i) := by ring
    rw [hdiff]
    generalize pos a i - extMin pos p P i = s at *
    generalize pos b i - extMin pos p P i = t at *
    generalize pos x j - pos y j = w at *
    have hu1 : u ≤ 1 / 1073741824 := by norm_num at hu ⊢; linarith
    have m1 : M ≤ (1 + 1 / 1073741824) * w := le_trans hMw (by gcongr)
    have c1 : (1 + u) ^ 3 ≤ 1 + 1 / 100000000 := by
      have : (1 + u) ^ 3 ≤ (1 + 1 / 1073741824 : ℝ) ^ 3 := by gcongr
      norm_num at this ⊢
      linarith
    have b1 : c ≤ (1 + 1 / 100000000) * (101 / 100) * M / 65535 := le_trans hbu (by gcongr)
    have u1 : u * A ≤ 1 / 1073741824 * M := mul_le_mul hu1 ya' za0 (by norm_num)
    have u2 : u * B ≤ 1 / 1073741824 * M := mul_le_mul hu1 yb' zb0 (by norm_num)
    have s1 : s ≤ 2 * M := by nlinarith
    have u3 : u * s ≤ 1 / 1073741824 * (2 * M) := mul_le_mul hu1 s1 xa (by norm_num)
    have t2 : t ≤ 2 * M := by
      nlinarith
    have u4 : u * t ≤ 1 / 1073741824 * (2 * M) := mul_le_mul hu1 t2 xb (by norm_num)
    have h3 : s - t ≤ c + 6 / 1073741824 * M := by linarith
    have h4 : c + 6 / 1073741824 * M ≤ (1542 / 100000000 + 6 / 1073741824) * M := by nlinarith
    nlinarith
  intro a ha b hb' i he
  exact abs_le.2 ⟨by linarith [key b hb' a ha i he.symm], key a ha b hb' i he⟩

/-- What a caller of the sort relies on. `code` are the codes by which the points are ordered:
the output is a permutation of the input in the order of the codes; a point that is larger or equal in every
coordinate has a larger or equal code; and points with equal codes are closer in every coordinate than `1 / 64000`
of the distance of some two input points in some coordinate. -/
def Sorted (pos : α → Fin d → ℝ) (P : List α) (r : Except Err (List α)) (code : α → Except Err ℕ) : Prop :=
  ∃ (c : α → ℕ) (out : List α), r = .ok out ∧ (∀ q ∈ P, code q = .ok (c q)) ∧ out.Perm P ∧
    (out.Pairwise fun a b => c a ≤ c b) ∧
    (∀ a ∈ P, ∀ b ∈ P, (∀ i, pos a i ≤ pos b i) → c a ≤ c b) ∧
    ∃ x ∈ P, ∃ y ∈ P, ∃ j, ∀ a ∈ P, ∀ b ∈ P, c a = c b → ∀ i, |pos a i - pos b i| ≤ (pos x j - pos y j) / 64000

/-- **C104** (planar sort): for every rounding with relative error at most `2 ^ -30` and every input with two
different locations the sort returns, without exception or undefined conversion, and keeps its promises. -/
theorem c104_sort2d_partial (hf : IsRounding u fl) (hu0 : 0 ≤ u) (hu : u ≤ 1 / 2 ^ 30) (srt : List (ℕ × α) → List (ℕ × α))
    (hsrt : SortSpec srt) (pos : α → Fin 2 → ℝ) (p : α) (P : List α) (hne : ∃ a ∈ p :: P, ∃ b ∈ p :: P, pos a ≠ pos b) :
    Sorted pos (p :: P) (zorderSort2dFl fl srt pos (p :: P)) (code2Fl fl pos p (p :: P)) := by
  have hu' : u ≤ 1 / 1000 := le_trans hu (by norm_num)
  have hp : p ∈ p :: P := by simp
  have hc := fun q hq i => cellsFl_eq hf hu0 hu' hp hne (q := q) hq i
  have hcode : ∀ q ∈ p :: P, code2Fl fl pos p (p :: P) q = .ok (interleave 16 ⌊quo fl pos p (p :: P) q 0⌋.toNat
      ⌊quo fl pos p (p :: P) q 1⌋.toNat 0) := by
    intro q hq
    unfold code2Fl
    rw [(hc q hq 0).1, (hc q hq 1).1]
    exact zorder2_eq _ _ (hc q hq 0).2 (hc q hq 1).2
  obtain ⟨out, h1, h2, h3⟩ := sortByCode_ok srt hsrt (code2Fl fl pos p (p :: P)) _ (p :: P) hcode
  refine ⟨_, out, h1, hcode, h2, h3, ?_, ?_⟩
  · intro a ha b hb hab
    exact interleave_mono 16 _ _ _ _ _ _ (quo_mono hf hu0 hu' hp hne (hab 0)) (quo_mono hf hu0 hu' hp hne (hab 1)) le_rfl
      (hc b hb 0).2 (hc b hb 1).2 (by norm_num)
  · obtain ⟨x, hx, y, hy, j, h⟩ := quo_close hf hu0 hu hp hne
    refine ⟨x, hx, y, hy, j, fun a ha b hb he i => h a ha b hb i ?_⟩
    obtain ⟨h0, h1, -⟩ := interleave_inj 16 _ _ _ _ _ _ (hc a ha 0).2 (hc a ha 1).2 (by norm_num) (hc b hb 0).2
      (hc b hb 1).2 (by norm_num) he
    fin_cases i
    · exact h0
    · exact h1

/-- **C104** (spatial sort). -/
theorem c104_sort3d_partial (hf : IsRounding u fl) (hu0 : 0 ≤ u) (hu : u ≤ 1 / 2 ^ 30) (srt : List (ℕ × α) → List (ℕ × α))
    (hsrt : SortSpec srt) (pos : α → Fin 3 → ℝ) (p : α) (P : List α) (hne : ∃ a ∈ p :: P, ∃ b ∈ p :: P, pos a ≠ pos b) :
    Sorted pos (p :: P) (zorderSort3dFl fl srt pos (p :: P)) (code3Fl fl pos p (p :: P)) := by
  have hu' : u ≤ 1 / 1000 := le_trans hu (by norm_num)
  have hp : p ∈ p :: P := by simp
  have hc := fun q hq i => cellsFl_eq hf hu0 hu' hp hne (q := q) hq i
  have hcode : ∀ q ∈ p :: P, code3Fl fl pos p (p :: P) q = .ok (interleave 16 ⌊quo fl pos p (p :: P) q 0⌋.toNat
      ⌊quo fl pos p (p :: P) q 1⌋.toNat ⌊quo fl pos p (p :: P) q 2⌋.toNat) := by
    intro q hq
    unfold code3Fl
    rw [(hc q hq 0).1, (hc q hq 1).1, (hc q hq 2).1]
    exact zorder3_eq _ _ _ (hc q hq 0).2 (hc q hq 1).2 (hc q hq 2).2
  obtain ⟨out, h1, h2, h3⟩ := sortByCode_ok srt hsrt (code3Fl fl pos p (p :: P)) _ (p :: P) hcode
  refine ⟨_, out, h1, hcode, h2, h3, ?_, ?_⟩
  · intro a ha b hb hab
    exact interleave_mono 16 _ _ _ _ _ _ (quo_mono hf hu0 hu' hp hne (hab 0)) (quo_mono hf hu0 hu' hp hne (hab 1))
      (quo_mono hf hu0 hu' hp hne (hab 2)) (hc b hb 0).2 (hc b hb 1).2 (hc b hb 2).2
  · obtain ⟨x, hx, y, hy, j, h⟩ := quo_close hf hu0 hu hp hne
    refine ⟨x, hx, y, hy, j, fun a ha b hb he i => h a ha b hb i ?_⟩
    obtain ⟨h0, h1, h2⟩ := interleave_inj 16 _ _ _ _ _ _ (hc a ha 0).2 (hc a ha 1).2 (hc a ha 2).2 (hc b hb 0).2
      (hc b hb 1).2 (hc b hb 2).2 he
    fin_cases i
    · exact h0
    · exact h1
    · exact h2

/-! ### Underflow -/

theorem rneSub_small {x : ℝ} {n : ℤ} (hn : rhe x = n) (hx : |x| < 2 ^ (52 : ℕ)) :
    rneSub (x / 2 ^ (1074 : ℕ)) = n / 2 ^ (1074 : ℕ) := by
  have h2 : (2 : ℝ) ^ (-1022 : ℤ) = 2 ^ (52 : ℕ) / 2 ^ (1074 : ℕ) := by
    rw [← zpow_natCast, ← zpow_natCast, ← zpow_sub₀ two_ne_zero]
    rfl
  unfold rneSub
  rw [if_pos, div_mul_cancel₀ _ (by positivity), hn]
  rw [abs_div, h2, abs_of_pos (show (0 : ℝ) < 2 ^ (1074 : ℕ) by positivity)]
  exact div_lt_div_of_pos_right hx (by positivity)

theorem rneSub_101 : |rneSub (101 / 100) - 101 / 100| ≤ 1 / 10 ^ 12 := by
  have h : ¬ |(101 / 100 : ℝ)| < 2 ^ (-1022 : ℤ) := by
    rw [not_lt, abs_of_pos (by norm_num)]
    refine le_trans (zpow_le_one_of_nonpos₀ (by norm_num) (by norm_num)) (by norm_num)
  unfold rneSub
  rw [if_neg h]
  refine le_trans ((isRounding_rne (p := 53) (by norm_num)).err _) ?_
  rw [abs_of_pos (by norm_num)]
  norm_num

/-- Two planar points that differ by `n` times the smallest positive double. -/
noncomputable def tiny (n : ℕ) (b : Bool) : Fin 2 → ℝ := if b then ![n / 2 ^ (1074 : ℕ), 0] else ![0, 0]

theorem tiny_nonneg (n : ℕ) : (0 : ℝ) ≤ n / 2 ^ (1074 : ℕ) := by positivity

theorem tiny_min (n : ℕ) (i : Fin 2) : extMin (tiny n) false [false, true] i = 0 := by
  have := tiny_nonneg n
  unfold extMin tiny
  fin_cases i <;> simp [this]

theorem tiny_max (n : ℕ) (i : Fin 2) : extMax (tiny n) false [false, true] i = if i = 0 then (n : ℝ) / 2 ^ (1074 : ℕ) else 0 := by
  have := tiny_nonneg n
  unfold extMax tiny
  fin_cases i <;> simp [this]

theorem rneSub_units {n : ℕ} (hn : n < 2 ^ 52) : rneSub ((n : ℝ) / 2 ^ (1074 : ℕ)) = n / 2 ^ (1074 : ℕ) := by
  have h := rneSub_small (x := n) (n := n) (rhe_int n) (by
    rw [abs_of_nonneg (Nat.cast_nonneg n)]
    exact_mod_cast hn)
  rwa [Int.cast_natCast] at h

theorem rneSub_zero : rneSub 0 = 0 := by
  have := rneSub_units (n := 0) (by norm_num)
  simpa using this

theorem tiny_maxSpan {n : ℕ} (hn : n < 2 ^ 52) : maxSpanFl rneSub (tiny n) false [false, true] = n / 2 ^ (1074 : ℕ) := by
  unfold maxSpanFl
  have e : List.finRange 2 = [0, 1] := rfl
  rw [e]
  simp only [List.foldl_cons, List.foldl_nil, tiny_min, tiny_max, if_true, sub_zero, rneSub_units hn]
  rw [if_neg (by decide), rneSub_zero]
  rw [max_eq_right (tiny_nonneg n), max_eq_left (tiny_nonneg n)]

/-- The box size of these points in units of the smallest positive double. -/
theorem tiny_box {n : ℕ} (hn : n ≤ 100000) {k : ℤ} (hk : k = 0 ∨ k = 1) (h1 : (k : ℝ) * 65535 + 1 ≤ 101 / 100 * n ∨ k = 0)
    (h2 : (101 / 100 : ℝ) * n ≤ (k + 1 / 2) * 65535 - 1) :
    boxSizeFl rneSub (tiny n) false [false, true] = k / 2 ^ (1074 : ℕ) := by
  unfold boxSizeFl
  rw [tiny_maxSpan (by omega), ← mul_div_assoc]
  have hn' : (n : ℝ) ≤ 100000 := by exact_mod_cast hn
  have hn0 : (0 : ℝ) ≤ n := Nat.cast_nonneg n
  obtain ⟨c1, c2⟩ := abs_le.1 rneSub_101
  generalize rneSub (101 / 100) = c at c1 c2
  have d1 : c * n - 101 / 100 * n ≤ 1 / 10 ^ 6 := by
    have : (c - 101 / 100) * n ≤ 1 / 10 ^ 12 * 100000 := by
      calc (c - 101 / 100) * n ≤ 1 / 10 ^ 12 * n := by gcongr
        _ ≤ 1 / 10 ^ 12 * 100000 := by gcongr
    norm_num at this ⊢
    linarith
  have d2 : 101 / 100 * n - c * n ≤ 1 / 10 ^ 6 := by
    have : (101 / 100 - c) * n ≤ 1 / 10 ^ 12 * 100000 := by
      calc (101 / 100 - c) * n ≤ 1 / 10 ^ 12 * n := by
            gcongr
            linarith
        _ ≤ 1 / 10 ^ 12 * 100000 := by gcongr
    norm_num at this ⊢
    linarith
  norm_num at d1 d2
  have c0 : 0 ≤ c := by
    norm_num at c1
    linarith
  have hcn : 0 ≤ c * n := by positivity
  obtain ⟨e1, e2⟩ := abs_le.1 (rhe_err (c * n))
  have hm0 := rhe_nonneg hcn
  rw [rneSub_small rfl (by
    rw [abs_of_nonneg hcn]
    norm_num
    linarith)]
  generalize rhe (c * n) = m at e1 e2 hm0
  have hm0' : (0 : ℝ) ≤ m := by exact_mod_cast hm0
  have e3 : ((maxRange : ℕ) : ℝ) = 65535 := by
    unfold maxRange
    norm_num
  rw [e3, div_right_comm]
  refine rneSub_small (rhe_down k ?_ ?_) ?_
  · rw [le_div_iff₀ (by norm_num)]
    rcases h1 with h1 | rfl
    · linarith
    · simpa using hm0'
  · rw [div_lt_iff₀ (by norm_num)]
    linarith
  · rw [abs_of_nonneg (by positivity), div_lt_iff₀ (by norm_num)]
    norm_num
    linarith

/-- **C104 fails by underflow.** Doubles with gradual underflow: for two points at a distance of at most 32000 times
the smallest positive double the box size is computed as zero, and the conversion of the quotient is undefined. -/
theorem c104_underflow_false (srt : List (ℕ × Bool) → List (ℕ × Bool)) {n : ℕ} (h0 : 1 ≤ n) (hn : n ≤ 32000) :
    tiny n false ≠ tiny n true ∧ zorderSort2dFl rneSub srt (tiny n) [false, true] = .error .ub := by
  constructor
  · intro h
    have h1 := congrFun h 0
    have : (0 : ℝ) < n / 2 ^ (1074 : ℕ) := by
      have : (0 : ℝ) < n := Nat.cast_pos.2 h0
      positivity
    simp only [tiny, Bool.false_eq_true, if_false, if_true, Matrix.cons_val_zero] at h1
    linarith
  · have hb := tiny_box (n := n) (k := 0) (by omega) (Or.inl rfl) (Or.inr rfl) (by
      have : (n : ℝ) ≤ 32000 := by exact_mod_cast hn
      norm_num
      linarith)
    have hc : code2Fl rneSub (tiny n) false [false, true] false = .error .ub := by
      unfold code2Fl cellsFl cellFl
      rw [hb]
      simp [Except.bind]
    rw [zorderSort2dFl, sortByCode, List.mapM_cons, hc]
    rfl

/-- **C104 fails by underflow (exception).** At distances between 65536 and 97000 times the smallest positive double
the box size is rounded down so far that a cell exceeds 16 bits. -/
theorem c104_range_false (srt : List (ℕ × Bool) → List (ℕ × Bool)) {n : ℕ} (h0 : 65536 ≤ n) (hn : n ≤ 97000) :
    zorderSort2dFl rneSub srt (tiny n) [false, true] = .error .throws := by
  have h0' : (65536 : ℝ) ≤ n := by exact_mod_cast h0
  have hn' : (n : ℝ) ≤ 97000 := by exact_mod_cast hn
  have hb := tiny_box (n := n) (k := 1) (by omega) (Or.inr rfl) (Or.inl (by
    norm_num
    linarith)) (by
    norm_num
    linarith)
  have hpos : (0 : ℝ) < 2 ^ (1074 : ℕ) := by positivity
  have hbn : ¬ ((1 : ℤ) : ℝ) / 2 ^ (1074 : ℕ) = 0 := by
    rw [Int.cast_one]
    exact (div_pos one_pos hpos).ne'
  have hc0 : ∀ i, cellsFl rneSub (tiny n) false [false, true] false i = .ok 0 := by
    intro i
    unfold cellsFl cellFl
    rw [hb, tiny_min, if_neg hbn]
    have e : tiny n false i = 0 := by
      unfold tiny
      fin_cases i <;> simp
    simp only [e, sub_zero, rneSub_zero, zero_div, lt_irrefl, if_false, Int.floor_zero, Int.toNat_zero]
  have hc1 : cellsFl rneSub (tiny n) false [false, true] true 1 = .ok 0 := by
    unfold cellsFl cellFl
    rw [hb, tiny_min, if_neg hbn]
    have e : tiny n true 1 = 0 := by simp [tiny]
    simp only [e, sub_zero, rneSub_zero, zero_div, lt_irrefl, if_false, Int.floor_zero, Int.toNat_zero]
  have hc2 : cellsFl rneSub (tiny n) false [false, true] true 0 = .ok n := by
    unfold cellsFl cellFl
    rw [hb, tiny_min, if_neg hbn]
    have e : tiny n true 0 = (n : ℝ) / 2 ^ (1074 : ℕ) := by simp [tiny]
    have e2 : (n : ℝ) / 2 ^ (1074 : ℕ) / (((1 : ℤ) : ℝ) / 2 ^ (1074 : ℕ)) = n := by
      rw [Int.cast_one]
      field_simp
    have e3 : rneSub (n : ℝ) = n := by
      unfold rneSub
      rw [if_neg, rne_repr (by norm_num) (repr_nat (by omega))]
      rw [not_lt, abs_of_nonneg (by positivity)]
      exact le_trans (zpow_le_one_of_nonpos₀ (by norm_num) (by norm_num)) (by linarith)
    rw [e, sub_zero, rneSub_units (by omega), e2, e3, if_neg (not_lt.2 (by positivity))]
    simp
  have hz : ∀ y, zorder2 ![n, y] = .error .throws := by
    intro y
    have h : shift n = .error .throws := by
      unfold shift maxRange
      rw [if_pos (by omega)]
    unfold zorder2
    rw [show (![n, y] : Fin 2 → ℕ) 0 = n from rfl, h]
    rfl
  have k0 : code2Fl rneSub (tiny n) false [false, true] false = .ok 0 := by
    unfold code2Fl
    rw [hc0, hc0]
    rfl
  have k1 : code2Fl rneSub (tiny n) false [false, true] true = .error .throws := by
    unfold code2Fl
    rw [hc2, hc1]
    exact hz 0
  rw [zorderSort2dFl, sortByCode, List.mapM_cons, k0, List.mapM_cons, k1]
  rfl

/-! ### Concrete cases -/

/-- Double precision meets the assumptions on the rounding, and three points on the axes of space those on the input. -/
example (srt : List (ℕ × (Fin 3 → ℝ)) → List (ℕ × (Fin 3 → ℝ))) (hsrt : SortSpec srt) :
    Sorted id [![(0 : ℝ), 0, 0], ![3, 0, 0], ![0, 0, 5]]
      (zorderSort3dFl (rne 53) srt id [![(0 : ℝ), 0, 0], ![3, 0, 0], ![0, 0, 5]])
      (code3Fl (rne 53) id ![(0 : ℝ), 0, 0] [![(0 : ℝ), 0, 0], ![3, 0, 0], ![0, 0, 5]]) :=
  c104_sort3d_partial (isRounding_rne (by norm_num)) (by positivity) (by norm_num) srt hsrt id _ _
    ⟨![0, 0, 0], by simp, ![3, 0, 0], by simp, fun h => by
      have := congrFun h 0
      simp at this⟩

/-- The same in the plane. -/
example (srt : List (ℕ × (Fin 2 → ℝ)) → List (ℕ × (Fin 2 → ℝ))) (hsrt : SortSpec srt) :
    Sorted id [![(0 : ℝ), 0], ![3, 0], ![0, 5]] (zorderSort2dFl (rne 53) srt id [![(0 : ℝ), 0], ![3, 0], ![0, 5]])
      (code2Fl (rne 53) id ![(0 : ℝ), 0] [![(0 : ℝ), 0], ![3, 0], ![0, 5]]) :=
  c104_sort2d_partial (isRounding_rne (by norm_num)) (by positivity) (by norm_num) srt hsrt id _ _
    ⟨![0, 0], by simp, ![3, 0], by simp, fun h => by
      have := congrFun h 0
      simp at this⟩

/-- Seven units: undefined. 70000 units: an exception. -/
example : zorderSort2dFl rneSub (fun L => L.mergeSort fun a b => decide (a.1 ≤ b.1)) (tiny 7) [false, true] = .error .ub ∧
    zorderSort2dFl rneSub (fun L => L.mergeSort fun a b => decide (a.1 ≤ b.1)) (tiny 70000) [false, true] = .error .throws :=
  ⟨(c104_underflow_false _ (by norm_num) (by norm_num)).2, c104_range_false _ (by norm_num) (by norm_num)⟩

end Verif.Morton
