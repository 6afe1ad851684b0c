import Verif.KdTree.FloatModel
import Verif.KdTree.RangeProps

set_option linter.unusedSectionVars false
set_option linter.unusedVariables false

/-!
Lemmas on the kd-tree in rounded arithmetic: the error of the computed distance and of the computed
query box, the construction, and the range search between two filters.
-/

namespace Verif.KdTree

open Verif.Float

variable {α : Type} {d : ℕ} {u : ℝ} {fl : ℝ → ℝ}

section
variable (hf : IsMonoRounding fl)
include hf

theorem fl_sq_comm (a b : ℝ) : fl (a - b) * fl (a - b) = fl (b - a) * fl (b - a) := by
  have : a - b = -(b - a) := by ring
  rw [this, hf.odd]
  ring

theorem distFl_nonneg (p q : Point ℝ d) : 0 ≤ distFl fl p q :=
  hf.nonneg (Real.sqrt_nonneg _)

theorem addSqFl_comm (p q : Point ℝ d) : addSqFl fl p q = addSqFl fl q p := by
  funext xx i
  unfold addSqFl
  rw [fl_sq_comm hf]

theorem distFl_comm (p q : Point ℝ d) : distFl fl p q = distFl fl q p := by
  unfold distFl distSqrFl
  rw [addSqFl_comm hf]

theorem widestFl_fold (b : Box ℝ d) (l : List (Fin d)) (s : ℝ × Option (Fin d)) :
    let r := l.foldl (widestStepFl fl b) s
    (∀ k ∈ l, fl (b.hi k - b.lo k) ≤ r.1) ∧ s.1 ≤ r.1 ∧ (r = s ∨ ∃ k ∈ l, r.2 = some k) := by
  induction l generalizing s with
  | nil => simp
  | cons a l ih =>
    simp only [List.foldl_cons]
    obtain ⟨h1, h2, h3⟩ := ih (widestStepFl fl b s a)
    have hs : fl (b.hi a - b.lo a) ≤ (widestStepFl fl b s a).1 ∧ s.1 ≤ (widestStepFl fl b s a).1 ∧
        (widestStepFl fl b s a = s ∨ (widestStepFl fl b s a).2 = some a) := by
      unfold widestStepFl
      split
      · rename_i hgt
        exact ⟨le_refl _, hgt.le, Or.inr rfl⟩
      · rename_i hgt
        exact ⟨not_lt.mp hgt, le_refl _, Or.inl rfl⟩
    refine ⟨?_, hs.2.1.trans h2, ?_⟩
    · intro k hk
      rcases List.mem_cons.mp hk with rfl | hk
      · exact hs.1.trans h2
      · exact h1 k hk
    · rcases h3 with h3 | ⟨k, hk, h3⟩
      · rw [h3]
        rcases hs.2.2 with h | h
        · left; exact h
        · right; exact ⟨a, by simp, h⟩
      · right; exact ⟨k, by simp [hk], h3⟩

theorem findWidestFl_ok (b : Box ℝ d) (hd : 0 < d) (hb : ∀ i, b.lo i ≤ b.hi i) :
    ∃ k, findWidestFl fl b = .ok k := by
  obtain ⟨h1, h2, h3⟩ := widestFl_fold hf b (List.finRange d) (-1, none)
  unfold findWidestFl
  rcases h3 with h3 | ⟨k, _, h3⟩
  · exfalso
    have h := h1 ⟨0, hd⟩ (List.mem_finRange _)
    rw [h3] at h
    have h0 := hf.nonneg (x := b.hi ⟨0, hd⟩ - b.lo ⟨0, hd⟩) (by linarith [hb ⟨0, hd⟩])
    simp only at h
    linarith
  · rw [h3]
    exact ⟨k, rfl⟩

theorem constructFl_ok (w bs : ℕ) (hw : 0 < w) (hb : 0 < bs) (hd : 0 < d) (pos : α → Point ℝ d)
    (leafSize : ℕ) (hls : 1 ≤ leafSize) (fuel : ℕ) (par : Bool) (items : List α) (h : items ≠ [])
    (hfu : items.length < fuel) :
    ∃ t, constructFl fl w bs pos leafSize fuel par items = .ok t ∧ t.items.Perm items ∧
      Sound pos leafSize t := by
  induction fuel generalizing par items with
  | zero => omega
  | succ fuel ih =>
    unfold constructFl
    set usePar : Bool := par && decide (items.length > 2000) with hup
    obtain ⟨box, hbox, htight⟩ : ∃ box, nodeBox w pos usePar items = .ok box ∧
        box.Tight pos items := by
      cases usePar
      · exact boxSerial_ok pos items h
      · exact boxParallel_ok w hw pos items h
    simp only [hbox, bind, Except.bind, pure, Except.pure]
    by_cases hle : items.length ≤ leafSize
    · rw [if_pos hle]
      exact ⟨_, rfl, List.Perm.refl _, ⟨h, hle, htight⟩⟩
    · rw [if_neg hle]
      obtain ⟨k, hk⟩ := findWidestFl_ok hf box hd (tight_le h htight)
      simp only [hk]
      set xM := fl (fl (box.hi k + box.lo k) / 2) with hxM
      obtain ⟨sp, hsp, hperm, hle2⟩ : ∃ sp, nodeSplit bs (fun x => pos x k) xM usePar items
          = .ok sp ∧ sp.1.Perm items ∧ sp.2 ≤ items.length := by
        cases usePar
        · obtain ⟨res, h1, h2⟩ := splitItemSerial_ok (fun x => pos x k) xM items (by omega)
          exact ⟨res, h1, h2.1, h2.2.1⟩
        · obtain ⟨res, h1, h2⟩ := splitParallel_ok bs hb (fun x => pos x k) xM items
          exact ⟨res, h1, h2.1, h2.2.1⟩
      simp only [hsp]
      set median := nodeMedian usePar items.length sp.2 with hmed
      have hlen : sp.1.length = items.length := hperm.length_eq
      have hm : 0 < median ∧ median < items.length := by
        have : median = (if sp.2 = 0 ∨ sp.2 = items.length then
          (if usePar = true then items.length / 2 else (items.length + 1) / 2) else sp.2) := hmed
        clear_value median
        split at this
        · split at this <;> omega
        · rename_i hn
          rw [not_or] at hn; omega
      have hlt : (sp.1.take median).length = median := by rw [List.length_take]; omega
      have hld : (sp.1.drop median).length = items.length - median := by rw [List.length_drop]; omega
      obtain ⟨l, hl1, hl2, hl3⟩ := ih usePar (sp.1.take median)
        (by intro h0; rw [h0] at hlt; simp at hlt; omega) (by omega)
      obtain ⟨r, hr1, hr2, hr3⟩ := ih usePar (sp.1.drop median)
        (by intro h0; rw [h0] at hld; simp at hld; omega) (by omega)
      simp only [hl1, hr1]
      have hall : (l.items ++ r.items).Perm items := by
        refine (hl2.append hr2).trans ?_
        rw [List.take_append_drop]; exact hperm
      exact ⟨_, rfl, hall, by rw [hall.length_eq]; omega, tight_perm hall htight, hl3, hr3⟩

/-- The search lies between two filters. -/
theorem rangeHelperFl_between (pos : α → Point ℝ d) (leafSize : ℕ) (t : Tree α ℝ d)
    (h : Sound pos leafSize t) (q : Point ℝ d) (qb : Box ℝ d) (r : ℝ) :
    (t.items.filter fun p => qb.Mem (pos p) ∧ distFl fl q (pos p) ≤ r).Sublist
        (rangeHelper (distFl fl) pos q qb r t) ∧
      (rangeHelper (distFl fl) pos q qb r t).Sublist
        (t.items.filter fun p => distFl fl q (pos p) ≤ r) := by
  classical
  have hbox := h.mem_box
  have hex : ∀ b, boxCompare qb b = .excl → ∀ p, b.Mem p → ¬ qb.Mem p := by
    intro b hb p hp hq
    obtain ⟨i, hi⟩ := boxCompare_excl hb
    rcases hi with hi | hi
    · exact absurd (lt_of_le_of_lt (hq i).2 hi) (not_lt.mpr (hp i).1)
    · exact absurd (lt_of_lt_of_le hi (hq i).1) (not_lt.mpr (hp i).2)
  have hsub : ∀ items : List α,
      (items.filter fun p => decide (qb.Mem (pos p) ∧ distFl fl q (pos p) ≤ r)).Sublist
        (items.filter fun p => decide (distFl fl q (pos p) ≤ r)) := by
    intro items
    refine List.monotone_filter_right items ?_
    intro x hx
    rw [decide_eq_true_iff] at hx ⊢
    exact hx.2
  have hnil : ∀ (b : Box ℝ d) (items : List α), boxCompare qb b = .excl →
      (∀ x ∈ items, b.Mem (pos x)) →
      (items.filter fun p => decide (qb.Mem (pos p) ∧ distFl fl q (pos p) ≤ r)) = [] := by
    intro b items hb hi
    rw [List.filter_eq_nil_iff]
    intro x hx
    rw [decide_eq_true_iff]
    exact fun hh => hex b hb _ (hi x hx) hh.1
  have hcomm : ∀ items : List α, (items.filter fun p => decide (distFl fl (pos p) q ≤ r))
      = items.filter fun p => decide (distFl fl q (pos p) ≤ r) := by
    intro items
    congr 1
    funext p
    rw [distFl_comm hf]
  induction t with
  | leaf b items =>
    unfold rangeHelper
    split
    · rename_i he
      simp only [Tree.items]
      rw [hnil b items he hbox]
      exact ⟨List.Sublist.refl _, List.nil_sublist _⟩
    · rw [hcomm]
      exact ⟨hsub items, List.Sublist.refl _⟩
    · exact ⟨hsub items, List.Sublist.refl _⟩
  | node b l r' ihl ihr =>
    unfold rangeHelper
    split
    · rename_i he
      rw [show (Tree.node b l r').items = l.items ++ r'.items from rfl, hnil b (l.items ++ r'.items) he hbox]
      exact ⟨List.Sublist.refl _, List.nil_sublist _⟩
    · rw [hcomm]
      exact ⟨hsub _, List.Sublist.refl _⟩
    · rw [show (Tree.node b l r').items = l.items ++ r'.items from rfl, List.filter_append,
        List.filter_append]
      have h1 := ihl h.2.2.1 h.2.2.1.mem_box
      have h2 := ihr h.2.2.2 h.2.2.2.mem_box
      exact ⟨h1.1.append h2.1, h1.2.append h2.2⟩

end

section
variable (hf : IsRounding u fl)
include hf

theorem fl_le {x : ℝ} (h : 0 ≤ x) : fl x ≤ (1 + u) * x := by
  have := (abs_le.mp (hf.err x)).2
  rw [abs_of_nonneg h] at this
  linarith

theorem fl_ge {x : ℝ} (h : 0 ≤ x) : (1 - u) * x ≤ fl x := by
  have := (abs_le.mp (hf.err x)).1
  rw [abs_of_nonneg h] at this
  linarith

theorem fl_abs (x : ℝ) : |fl x| = fl |x| := by
  rcases le_total 0 x with h | h
  · rw [abs_of_nonneg h, abs_of_nonneg (hf.nonneg h)]
  · rw [abs_of_nonpos h, hf.odd, abs_of_nonpos]
    have := hf.nonneg (x := -x) (by linarith)
    rw [hf.odd] at this
    linarith

/-- One rounded squared difference. -/
theorem term_bounds (hu : u ≤ 1) (x : ℝ) :
    (1 - u) ^ 3 * (x * x) ≤ fl (fl x * fl x) ∧ fl (fl x * fl x) ≤ (1 + u) ^ 3 * (x * x) := by
  have e : fl x * fl x = fl |x| * fl |x| := by
    rw [← abs_mul_abs_self (fl x), fl_abs hf]
  have e2 : x * x = |x| * |x| := (abs_mul_abs_self x).symm
  rw [e, e2]
  have hx := abs_nonneg x
  generalize |x| = y at hx
  have h1 := fl_ge hf hx
  have h2 := fl_le hf hx
  have h0 := hf.nonneg hx
  have h3 : 0 ≤ (1 - u) * y := mul_nonneg (by linarith) hx
  have h4 : (1 - u) ^ 2 * (y * y) ≤ fl y * fl y := by nlinarith
  have h5 : fl y * fl y ≤ (1 + u) ^ 2 * (y * y) := by nlinarith
  have hp : 0 ≤ fl y * fl y := mul_nonneg h0 h0
  have hu0 : 0 ≤ 1 + u := by
    have := hf.err 1
    rw [abs_one, mul_one] at this
    linarith [abs_nonneg (fl 1 - 1)]
  constructor
  · calc _ = (1 - u) * ((1 - u) ^ 2 * (y * y)) := by ring
      _ ≤ (1 - u) * (fl y * fl y) := mul_le_mul_of_nonneg_left h4 (by linarith)
      _ ≤ _ := fl_ge hf hp
  · calc _ ≤ (1 + u) * (fl y * fl y) := fl_le hf hp
      _ ≤ (1 + u) * ((1 + u) ^ 2 * (y * y)) := mul_le_mul_of_nonneg_left h5 hu0
      _ = _ := by ring

theorem u_nonneg : 0 ≤ u := by
  have := hf.err 1
  rw [abs_one, mul_one] at this
  linarith [abs_nonneg (fl 1 - 1)]

/-- The loop of `distSqr` over a list of coordinates. -/
theorem fold_bounds (hu : u ≤ 1) (p q : Point ℝ d) (l : List (Fin d)) (xx S : ℝ) (k : ℕ)
    (hS : 0 ≤ S) (h1 : (1 - u) ^ (k + 3) * S ≤ xx) (h2 : xx ≤ (1 + u) ^ (k + 3) * S) :
    (1 - u) ^ (k + l.length + 3) * (S + (l.map fun i => (p i - q i) * (p i - q i)).sum)
        ≤ l.foldl (addSqFl fl p q) xx ∧
      l.foldl (addSqFl fl p q) xx
        ≤ (1 + u) ^ (k + l.length + 3) * (S + (l.map fun i => (p i - q i) * (p i - q i)).sum) := by
  have hu0 := u_nonneg hf
  induction l generalizing xx S k with
  | nil => simpa using ⟨h1, h2⟩
  | cons i l ih =>
    obtain ⟨t1, t2⟩ := term_bounds hf hu (p i - q i)
    set y := (p i - q i) * (p i - q i) with hy
    have hy0 : 0 ≤ y := mul_self_nonneg _
    set T := fl (fl (p i - q i) * fl (p i - q i)) with hT
    have ha : 0 ≤ 1 - u := by linarith
    have ha1 : 1 - u ≤ 1 := by linarith
    have hb : 1 ≤ 1 + u := by linarith
    have hx0 : 0 ≤ xx := le_trans (mul_nonneg (pow_nonneg ha _) hS) h1
    have hT0 : 0 ≤ T := le_trans (mul_nonneg (pow_nonneg ha _) hy0) t1
    have g1 : (1 - u) ^ (k + 3) * y ≤ T := by
      refine le_trans (mul_le_mul_of_nonneg_right ?_ hy0) t1
      exact pow_le_pow_of_le_one ha ha1 (by omega)
    have g2 : T ≤ (1 + u) ^ (k + 3) * y := by
      refine le_trans t2 (mul_le_mul_of_nonneg_right ?_ hy0)
      exact pow_le_pow_right₀ hb (by omega)
    have key := ih (fl (xx + T)) (S + y) (k + 1) (by linarith) ?_ ?_
    · rw [List.foldl_cons, List.map_cons, List.sum_cons, List.length_cons]
      have e1 : addSqFl fl p q xx i = fl (xx + T) := rfl
      have e2 : k + (l.length + 1) + 3 = k + 1 + l.length + 3 := by omega
      rw [e1, e2, ← add_assoc]
      exact key
    · refine le_trans ?_ (fl_ge hf (by linarith))
      calc (1 - u) ^ (k + 1 + 3) * (S + y)
          = (1 - u) * ((1 - u) ^ (k + 3) * S + (1 - u) ^ (k + 3) * y) := by ring
        _ ≤ _ := mul_le_mul_of_nonneg_left (by linarith) ha
    · refine le_trans (fl_le hf (by linarith)) ?_
      calc (1 + u) * (xx + T)
          ≤ (1 + u) * ((1 + u) ^ (k + 3) * S + (1 + u) ^ (k + 3) * y) :=
            mul_le_mul_of_nonneg_left (by linarith) (by linarith)
        _ = _ := by ring

theorem distSqrFl_bounds (hu : u ≤ 1) (p q : Point ℝ d) :
    (1 - u) ^ (d + 3) * distSqr p q ≤ distSqrFl fl p q ∧
      distSqrFl fl p q ≤ (1 + u) ^ (d + 3) * distSqr p q := by
  have h := fold_bounds hf hu p q (List.finRange d) 0 0 0 (le_refl _) (by simp) (by simp)
  have e : (0 : ℝ) + ((List.finRange d).map fun i => (p i - q i) * (p i - q i)).sum
      = distSqr p q := by
    rw [zero_add]
    unfold distSqr
    rw [← List.ofFn_eq_map, List.sum_ofFn]
  rw [e, List.length_finRange, zero_add] at h
  exact h

/-- The computed distance, squared, against the exact one. -/
theorem distFl_bounds (hu : u ≤ 1) (p q : Point ℝ d) :
    (1 - u) ^ (d + 5) * distSqr p q ≤ distFl fl p q ^ 2 ∧
      distFl fl p q ^ 2 ≤ (1 + u) ^ (d + 5) * distSqr p q := by
  have hu0 := u_nonneg hf
  obtain ⟨h1, h2⟩ := distSqrFl_bounds hf hu p q
  have hD := distSqr_nonneg p q
  have h0 : 0 ≤ distSqrFl fl p q :=
    le_trans (mul_nonneg (pow_nonneg (by linarith) _) hD) h1
  have hs := Real.sqrt_nonneg (distSqrFl fl p q)
  have hsq := Real.sq_sqrt h0
  have g1 := fl_ge hf hs
  have g2 := fl_le hf hs
  have g0 : 0 ≤ (1 - u) * Real.sqrt (distSqrFl fl p q) := mul_nonneg (by linarith) hs
  unfold distFl
  constructor
  · calc _ = (1 - u) ^ 2 * ((1 - u) ^ (d + 3) * distSqr p q) := by ring
      _ ≤ (1 - u) ^ 2 * distSqrFl fl p q := mul_le_mul_of_nonneg_left h1 (by positivity)
      _ = ((1 - u) * Real.sqrt (distSqrFl fl p q)) ^ 2 := by rw [mul_pow, hsq]
      _ ≤ _ := pow_le_pow_left₀ g0 g1 2
  · calc _ ≤ ((1 + u) * Real.sqrt (distSqrFl fl p q)) ^ 2 :=
          pow_le_pow_left₀ (hf.nonneg hs) g2 2
      _ = (1 + u) ^ 2 * distSqrFl fl p q := by rw [mul_pow, hsq]
      _ ≤ (1 + u) ^ 2 * ((1 + u) ^ (d + 3) * distSqr p q) :=
          mul_le_mul_of_nonneg_left h2 (by positivity)
      _ = _ := by ring

/-- The computed query box misses at most a slack of a few roundings. -/
theorem queryBoxFl_mem (hu : u ≤ 1) {q p : Point ℝ d} {r : ℝ} (hr : 0 ≤ r)
    (h : ∀ i, |q i - p i| + 3 * u * (|q i| + 3 * r) ≤ r) : (queryBoxFl fl q r).Mem p := by
  have hu0 := u_nonneg hf
  intro i
  have hi := h i
  have ha := abs_le.mp (le_of_eq (rfl : |q i - p i| = |q i - p i|))
  have hq := abs_nonneg (q i)
  have hqr : |q i - r| ≤ |q i| + r := by
    have := abs_sub (q i) r
    rwa [abs_of_nonneg hr] at this
  have e1 := abs_le.mp (hf.err (q i - r))
  have hm : u * |q i - r| ≤ u * (|q i| + r) := mul_le_mul_of_nonneg_left hqr hu0
  have hur : 0 ≤ u * r := mul_nonneg hu0 hr
  have huq : 0 ≤ u * |q i| := mul_nonneg hu0 hq
  constructor
  · show fl (q i - r) ≤ p i
    nlinarith [ha.1, ha.2]
  · show p i ≤ fl (fl (q i - r) + fl (r * 2))
    have e2 := abs_le.mp (hf.err (r * 2))
    rw [abs_of_nonneg (by linarith : 0 ≤ r * 2)] at e2
    have e3 := abs_le.mp (hf.err (fl (q i - r) + fl (r * 2)))
    have hw : |fl (q i - r) + fl (r * 2)| ≤ 2 * (|q i| + r) + 2 * (2 * r) := by
      have h1 : |fl (q i - r)| ≤ 2 * (|q i| + r) := by
        rw [abs_le]
        have hh := abs_le.mp hqr
        have : u * |q i - r| ≤ |q i| + r := by nlinarith [abs_nonneg (q i - r)]
        constructor <;> linarith [e1.1, e1.2, hh.1, hh.2]
      have h2 : |fl (r * 2)| ≤ 2 * (2 * r) := by
        rw [abs_of_nonneg (hf.nonneg (by linarith))]
        have : u * (r * 2) ≤ 2 * r := by nlinarith
        linarith [e2.2]
      exact (abs_add_le _ _).trans (add_le_add h1 h2)
    have hm2 := mul_le_mul_of_nonneg_left hw hu0
    nlinarith [ha.1, ha.2, e1.1, e2.1, e3.1]


end

end Verif.KdTree
