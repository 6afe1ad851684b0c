import Mathlib.Data.List.Perm.Basic
import Mathlib.Data.Finset.Card
import Mathlib.Tactic.Linarith
import Mathlib.Tactic.Positivity
import Mathlib.Tactic.FieldSimp
import Verif.SampleHull.SpatialModel

set_option linter.unusedSectionVars false
set_option linter.unusedVariables false

/-!
The grid sample in space (C77), for every order of the concurrent insertions.
-/

namespace Verif.SampleHull

open Verif Verif.QHull

variable {K : Type} [Field K] [LinearOrder K] [IsStrictOrderedRing K] [FloorRing K]

/-- Specification: the smallest cube with lower corner at the smallest coordinates that contains the points, divided into `di` cells of
side `r` in each direction. -/
structure Grid (P : List (P3 K)) (di : ℕ) (lo : Fin 3 → K) (r : K) : Prop where
  low : ∀ p ∈ P, ∀ k, lo k ≤ p k
  lowAt : ∀ k, ∃ p ∈ P, p k = lo k
  high : ∀ p ∈ P, ∀ k, p k ≤ lo k + di * r
  highAt : ∃ k, ∃ p ∈ P, p k = lo k + di * r

/-- Specification: two points lie in the same cell of the grid (cells contain their lower faces). -/
def SameCell (lo : Fin 3 → K) (r : K) (p q : P3 K) : Prop :=
  ∀ k, ∃ n : ℕ, (lo k + n * r ≤ p k ∧ p k < lo k + (n + 1) * r) ∧ lo k + n * r ≤ q k ∧ q k < lo k + (n + 1) * r

/-! The insertions. -/

theorem firsts_mem {key : ℕ → ℕ} {ord : List ℕ} : ∀ {T : List ℕ} {i : ℕ}, i ∈ firsts key ord T → i ∈ ord ∧ key i ∉ T := by
  induction ord with
  | nil => intro T i h; simp [firsts] at h
  | cons j l ih =>
    intro T i h
    rw [firsts] at h
    split at h
    · obtain ⟨h1, h2⟩ := ih h
      exact ⟨List.mem_cons_of_mem _ h1, h2⟩
    · rename_i hj
      rcases List.mem_cons.mp h with rfl | h
      · exact ⟨List.mem_cons_self .., hj⟩
      · obtain ⟨h1, h2⟩ := ih h
        exact ⟨List.mem_cons_of_mem _ h1, fun hc => h2 (List.mem_cons_of_mem _ hc)⟩

theorem firsts_cover {key : ℕ → ℕ} {ord : List ℕ} : ∀ {T : List ℕ} {i : ℕ}, i ∈ ord →
    key i ∈ T ∨ ∃ j ∈ firsts key ord T, key j = key i := by
  induction ord with
  | nil => intro T i h; simp at h
  | cons j l ih =>
    intro T i h
    rw [firsts]
    split
    · rename_i hj
      rcases List.mem_cons.mp h with rfl | h
      · exact Or.inl hj
      · exact ih h
    · rename_i hj
      rcases List.mem_cons.mp h with rfl | h
      · exact Or.inr ⟨i, List.mem_cons_self .., rfl⟩
      · rcases ih (T := key j :: T) h with h1 | ⟨k, hk, he⟩
        · rcases List.mem_cons.mp h1 with h1 | h1
          · exact Or.inr ⟨j, List.mem_cons_self .., h1.symm⟩
          · exact Or.inl h1
        · exact Or.inr ⟨k, List.mem_cons_of_mem _ hk, he⟩

theorem firsts_inj {key : ℕ → ℕ} {ord : List ℕ} : ∀ {T : List ℕ} {i j : ℕ}, i ∈ firsts key ord T → j ∈ firsts key ord T →
    key i = key j → i = j := by
  induction ord with
  | nil => intro T i j h; simp [firsts] at h
  | cons a l ih =>
    intro T i j hi hj he
    rw [firsts] at hi hj
    split at hi
    · rename_i ha
      rw [if_pos ha] at hj
      exact ih hi hj he
    · rename_i ha
      rw [if_neg ha] at hj
      rcases List.mem_cons.mp hi with rfl | hi' <;> rcases List.mem_cons.mp hj with rfl | hj'
      · rfl
      · exact absurd (he ▸ List.mem_cons_self ..) (firsts_mem hj').2
      · exact absurd (he ▸ List.mem_cons_self ..) (firsts_mem hi').2
      · exact ih hi' hj' he

/-! The bounding cube. -/

theorem foldl_min_le (l : List K) : ∀ (a : K), l.foldl min a ≤ a ∧ ∀ x ∈ l, l.foldl min a ≤ x := by
  induction l with
  | nil => intro a; simp
  | cons y l ih =>
    intro a
    obtain ⟨h1, h2⟩ := ih (min a y)
    refine ⟨h1.trans (min_le_left _ _), fun x hx => ?_⟩
    rcases List.mem_cons.mp hx with rfl | hx
    · exact h1.trans (min_le_right _ _)
    · exact h2 x hx

theorem foldl_min_mem (l : List K) : ∀ (a : K), l.foldl min a = a ∨ l.foldl min a ∈ l := by
  induction l with
  | nil => intro a; simp
  | cons y l ih =>
    intro a
    rcases ih (min a y) with h | h
    · rcases min_choice a y with h' | h'
      · left; rw [List.foldl_cons, h, h']
      · right; rw [List.foldl_cons, h, h']; exact List.mem_cons_self ..
    · right; exact List.mem_cons_of_mem _ h

theorem le_foldl_max (l : List K) : ∀ (a : K), a ≤ l.foldl max a ∧ ∀ x ∈ l, x ≤ l.foldl max a := by
  induction l with
  | nil => intro a; simp
  | cons y l ih =>
    intro a
    obtain ⟨h1, h2⟩ := ih (max a y)
    refine ⟨(le_max_left _ _).trans h1, fun x hx => ?_⟩
    rcases List.mem_cons.mp hx with rfl | hx
    · exact (le_max_right _ _).trans h1
    · exact h2 x hx

theorem foldl_max_mem (l : List K) : ∀ (a : K), l.foldl max a = a ∨ l.foldl max a ∈ l := by
  induction l with
  | nil => intro a; simp
  | cons y l ih =>
    intro a
    rcases ih (max a y) with h | h
    · rcases max_choice a y with h' | h'
      · left; rw [List.foldl_cons, h, h']
      · right; rw [List.foldl_cons, h, h']; exact List.mem_cons_self ..
    · right; exact List.mem_cons_of_mem _ h

variable {P : List (P3 K)}

theorem lowOf_le {p : P3 K} (hp : p ∈ P) (k : Fin 3) : lowOf P k ≤ p k :=
  (foldl_min_le _ _).2 _ (List.mem_map.mpr ⟨p, hp, rfl⟩)

theorem le_highOf {p : P3 K} (hp : p ∈ P) (k : Fin 3) : p k ≤ highOf P k :=
  (le_foldl_max _ _).2 _ (List.mem_map.mpr ⟨p, hp, rfl⟩)

theorem lowOf_mem (hP : P ≠ []) (k : Fin 3) : ∃ p ∈ P, p k = lowOf P k := by
  obtain ⟨q, Q, rfl⟩ := List.exists_cons_of_ne_nil hP
  rcases foldl_min_mem ((q :: Q).map fun p => p k) ((q :: Q).headD 0 k) with h | h
  · exact ⟨q, by simp, h.symm⟩
  · obtain ⟨p, hp, he⟩ := List.mem_map.mp h
    exact ⟨p, hp, he⟩

theorem highOf_mem (hP : P ≠ []) (k : Fin 3) : ∃ p ∈ P, p k = highOf P k := by
  obtain ⟨q, Q, rfl⟩ := List.exists_cons_of_ne_nil hP
  rcases foldl_max_mem ((q :: Q).map fun p => p k) ((q :: Q).headD 0 k) with h | h
  · exact ⟨q, by simp, h.symm⟩
  · obtain ⟨p, hp, he⟩ := List.mem_map.mp h
    exact ⟨p, hp, he⟩

theorem span_ge (P : List (P3 K)) (k : Fin 3) : highOf P k - lowOf P k ≤ span P := by
  unfold span
  fin_cases k
  · exact (le_max_right _ _).trans ((le_max_left _ _).trans (le_max_left _ _))
  · exact (le_max_right _ _).trans (le_max_left _ _)
  · exact le_max_right _ _

theorem span_eq (hP : P ≠ []) : ∃ k, highOf P k - lowOf P k = span P := by
  have h0 : 0 ≤ highOf P 0 - lowOf P 0 := by
    obtain ⟨p, hp, h⟩ := lowOf_mem hP 0
    rw [← h]
    exact sub_nonneg.mpr (le_highOf hp 0)
  unfold span
  rw [max_eq_right h0]
  rcases max_choice (max (highOf P 0 - lowOf P 0) (highOf P 1 - lowOf P 1)) (highOf P 2 - lowOf P 2) with h | h
  · rcases max_choice (highOf P 0 - lowOf P 0) (highOf P 1 - lowOf P 1) with h' | h'
    · exact ⟨0, by rw [h, h']⟩
    · exact ⟨1, by rw [h, h']⟩
  · exact ⟨2, h.symm⟩

/-- The box and the side computed by the code are those of the specification, and the specification determines them. -/
theorem grid_unique (hP : P ≠ []) {di : ℕ} (hdi : 1 ≤ di) {lo : Fin 3 → K} {r : K} (hG : Grid P di lo r) :
    lo = lowOf P ∧ r = span P / di := by
  have hd : (0 : K) < di := by exact_mod_cast hdi
  have hlo : lo = lowOf P := by
    funext k
    apply le_antisymm
    · obtain ⟨p, hp, h⟩ := lowOf_mem hP k
      rw [← h]; exact hG.low p hp k
    · obtain ⟨p, hp, h⟩ := hG.lowAt k
      rw [← h]; exact lowOf_le hp k
  subst hlo
  refine ⟨rfl, ?_⟩
  rw [eq_div_iff hd.ne']
  apply le_antisymm
  · obtain ⟨k, p, hp, h⟩ := hG.highAt
    have h1 := le_highOf hp k
    have h2 := span_ge P k
    linarith
  · obtain ⟨k, h⟩ := span_eq hP
    obtain ⟨p, hp, h'⟩ := highOf_mem hP k
    have := hG.high p hp k
    linarith

theorem grid_ok (hP : P ≠ []) {di : ℕ} (hdi : 1 ≤ di) : Grid P di (lowOf P) (span P / di) := by
  have hd : (0 : K) < di := by exact_mod_cast hdi
  have he : (di : K) * (span P / di) = span P := by field_simp
  refine ⟨fun p hp k => lowOf_le hp k, fun k => lowOf_mem hP k, fun p hp k => ?_, ?_⟩
  · have h1 := le_highOf hp k
    have h2 := span_ge P k
    rw [he]; linarith
  · obtain ⟨k, h⟩ := span_eq hP
    obtain ⟨p, hp, h'⟩ := highOf_mem hP k
    exact ⟨k, p, hp, by rw [he]; linarith⟩

/-! Cells. -/

theorem cellOf_iff {lo : Fin 3 → K} {r : K} (hr : 0 < r) {p : P3 K} {k : Fin 3} (hp : lo k ≤ p k) (n : ℕ) :
    cellOf lo r p k = n ↔ lo k + n * r ≤ p k ∧ p k < lo k + (n + 1) * r := by
  have h0 : 0 ≤ (p k - lo k) / r := div_nonneg (by linarith) hr.le
  have hf : (cellOf lo r p k : ℤ) = ⌊(p k - lo k) / r⌋ := Int.toNat_of_nonneg (Int.floor_nonneg.mpr h0)
  have h1 : cellOf lo r p k = n ↔ ⌊(p k - lo k) / r⌋ = (n : ℤ) := by rw [← hf]; exact Int.natCast_inj.symm
  rw [h1, Int.floor_eq_iff, le_div_iff₀ hr, div_lt_iff₀ hr]
  push_cast
  constructor
  · rintro ⟨h2, h3⟩; exact ⟨by linarith, by linarith⟩
  · rintro ⟨h2, h3⟩; exact ⟨by linarith, by linarith⟩

theorem sameCell_iff {lo : Fin 3 → K} {r : K} (hr : 0 < r) {p q : P3 K} (hp : ∀ k, lo k ≤ p k) (hq : ∀ k, lo k ≤ q k) :
    SameCell lo r p q ↔ ∀ k, cellOf lo r p k = cellOf lo r q k := by
  constructor
  · intro h k
    obtain ⟨n, h1, h2⟩ := h k
    rw [(cellOf_iff hr (hp k) n).mpr h1, (cellOf_iff hr (hq k) n).mpr h2]
  · intro h k
    refine ⟨cellOf lo r p k, (cellOf_iff hr (hp k) _).mp rfl, ?_⟩
    rw [h k]
    exact (cellOf_iff hr (hq k) _).mp rfl

theorem cellOf_le {di : ℕ} {lo : Fin 3 → K} {r : K} (hr : 0 < r) {p : P3 K} {k : Fin 3} (hp : lo k ≤ p k)
    (hh : p k ≤ lo k + di * r) : cellOf lo r p k ≤ di := by
  by_contra hc
  have h1 := ((cellOf_iff hr hp _).mp rfl).1
  have h2 : ((di : K) + 1) * r ≤ cellOf lo r p k * r := by
    apply mul_le_mul_of_nonneg_right _ hr.le
    exact_mod_cast Nat.lt_of_not_le hc
  linarith

theorem cellOf_lt {di : ℕ} {lo : Fin 3 → K} {r : K} (hr : 0 < r) {p : P3 K} {k : Fin 3} (hp : lo k ≤ p k)
    (hh : p k < lo k + di * r) : cellOf lo r p k < di := by
  by_contra hc
  have h1 := ((cellOf_iff hr hp _).mp rfl).1
  have h2 : (di : K) * r ≤ cellOf lo r p k * r := by
    apply mul_le_mul_of_nonneg_right _ hr.le
    exact_mod_cast Nat.le_of_not_lt hc
  linarith

theorem digits_inj {di a b c a' b' c' : ℕ} (hb : b < di) (hc : c < di) (hb' : b' < di) (hc' : c' < di)
    (h : a * di * di + b * di + c = a' * di * di + b' * di + c') : a = a' ∧ b = b' ∧ c = c' := by
  have hd : 0 < di := by omega
  have e : ∀ x y z : ℕ, x * di * di + y * di + z = z + di * (y + di * x) := by intro x y z; ring
  rw [e, e] at h
  have h1 := congrArg (· % di) h
  simp only [Nat.add_mul_mod_self_left, Nat.mod_eq_of_lt hc, Nat.mod_eq_of_lt hc'] at h1
  subst h1
  have h2 : b + di * a = b' + di * a' := Nat.eq_of_mul_eq_mul_left hd (Nat.add_left_cancel h)
  have h3 := congrArg (· % di) h2
  simp only [Nat.add_mul_mod_self_left, Nat.mod_eq_of_lt hb, Nat.mod_eq_of_lt hb'] at h3
  subst h3
  exact ⟨Nat.eq_of_mul_eq_mul_left hd (Nat.add_left_cancel h2), rfl, rfl⟩

/-! The sample. -/

/-- The outcome for points that are not all equal. -/
theorem gridSample_ok {top : K} (htop : ∀ p ∈ P, p 0 ≠ top) {ord : List ℕ} (hord : ord.Perm (List.range P.length))
    {di : ℕ} (hdi : 1 ≤ di) (hmax : di ≤ 2000000) {lo : Fin 3 → K} {r : K} (hG : Grid P di lo r) (hr : 0 < r) :
    ∃ S, gridSample top ord di P = .ok S ∧ S.Sublist P ∧ S.Pairwise (fun s t => cellId di lo r s ≠ cellId di lo r t) ∧
      ∀ p ∈ P, ∃ s ∈ S, cellId di lo r s = cellId di lo r p := by
  have hP : P ≠ [] := by
    rintro rfl
    obtain ⟨p, hp, _⟩ := hG.lowAt 0
    simp at hp
  obtain ⟨rfl, rfl⟩ := grid_unique hP hdi hG
  unfold gridSample
  rw [if_neg (by omega), if_neg hP, if_neg hr.ne']
  refine ⟨_, rfl, ?_, ?_, ?_⟩
  · have h : ((List.range P.length).map fun i => P.getD i 0) = P := by
      apply List.ext_getElem
      · simp
      · intro i h1 h2
        rw [List.getElem_map, List.getElem_range, List.getD_eq_getElem _ _ h2]
    conv => rhs; rw [← h]
    exact List.filter_sublist.map _
  · rw [List.pairwise_map]
    refine (List.nodup_range.filter _).imp_of_mem ?_
    intro i j hi hj hij he
    simp only [List.mem_filter, Bool.and_eq_true, decide_eq_true_eq] at hi hj
    exact hij (firsts_inj hi.2.1 hj.2.1 he)
  · intro p hp
    obtain ⟨i, hi, rfl⟩ := List.getElem_of_mem hp
    have hio : i ∈ ord := hord.mem_iff.mpr (List.mem_range.mpr hi)
    rcases firsts_cover (key := fun i => cellId di (lowOf P) (span P / di) (P.getD i 0)) (T := []) hio with h | ⟨j, hj, he⟩
    · simp at h
    · have hj' : j < P.length := List.mem_range.mp (hord.mem_iff.mp (firsts_mem hj).1)
      refine ⟨P.getD j 0, List.mem_map.mpr ⟨j, ?_, rfl⟩, ?_⟩
      · simp only [List.mem_filter, List.mem_range, Bool.and_eq_true, decide_eq_true_eq]
        refine ⟨hj', hj, ?_⟩
        rw [List.getD_eq_getElem _ _ hj']
        exact htop _ (List.getElem_mem hj')
      · rw [← List.getD_eq_getElem P 0 hi]
        exact he

/-- The number of a cell fits in 64 bits. -/
theorem c77_no_overflow {di : ℕ} (hmax : di ≤ 2000000) {lo : Fin 3 → K} {r : K} (hG : Grid P di lo r) (hr : 0 < r) {p : P3 K}
    (hp : p ∈ P) : cellId di lo r p ≤ di * di * di + di * di + di ∧ cellId di lo r p < 2 ^ 64 := by
  have h := fun k => cellOf_le (di := di) hr (hG.low p hp k) (hG.high p hp k)
  have h0 := Nat.mul_le_mul_right di (Nat.mul_le_mul_right di (h 0))
  have h1 := Nat.mul_le_mul_right di (h 1)
  have h2 := h 2
  have : cellId di lo r p ≤ di * di * di + di * di + di := by
    unfold cellId
    omega
  refine ⟨this, this.trans_lt ?_⟩
  have h3 : di * di ≤ 2000000 * 2000000 := Nat.mul_le_mul hmax hmax
  have h4 : di * di * di ≤ 2000000 * 2000000 * 2000000 := Nat.mul_le_mul h3 hmax
  omega

/-- C77, for every order of the insertions: `gridSample` returns points of the input in their order, no two of them from one cell, at
most `di^3 + di^2 + di + 1` of them and at least one; and if no point lies on the upper face of the cube in the second or third
direction, every point of the input shares its cell with a returned point. Missing: that condition, without which it is false
(`c77_collision_false`), and inputs whose points are all equal (`c77_equal_ub`). -/
theorem c77_grid_partial {top : K} (htop : ∀ p ∈ P, p 0 ≠ top) {ord : List ℕ} (hord : ord.Perm (List.range P.length))
    {di : ℕ} (hdi : 1 ≤ di) (hmax : di ≤ 2000000) {lo : Fin 3 → K} {r : K} (hG : Grid P di lo r) (hr : 0 < r) :
    ∃ S, gridSample top ord di P = .ok S ∧ S.Sublist P ∧ S ≠ [] ∧ S.length ≤ di * di * di + di * di + di + 1 ∧
      S.Pairwise (fun s t => ¬ SameCell lo r s t) ∧
      ((∀ p ∈ P, p 1 < lo 1 + di * r ∧ p 2 < lo 2 + di * r) → ∀ p ∈ P, ∃ s ∈ S, SameCell lo r p s) := by
  obtain ⟨S, h1, h2, h3, h4⟩ := gridSample_ok htop hord hdi hmax hG hr
  refine ⟨S, h1, h2, ?_, ?_, ?_, ?_⟩
  · obtain ⟨p, hp, _⟩ := hG.lowAt 0
    obtain ⟨s, hs, _⟩ := h4 p hp
    exact List.ne_nil_of_mem hs
  · have hn : (S.map (cellId di lo r)).Nodup := List.pairwise_map.mpr h3
    have hsub : (S.map (cellId di lo r)).toFinset ⊆ Finset.range (di * di * di + di * di + di + 1) := by
      intro x hx
      obtain ⟨s, hs, rfl⟩ := List.mem_map.mp (List.mem_toFinset.mp hx)
      exact Finset.mem_range.mpr (Nat.lt_succ_of_le (c77_no_overflow hmax hG hr (h2.subset hs)).1)
    have := Finset.card_le_card hsub
    rwa [List.toFinset_card_of_nodup hn, Finset.card_range, List.length_map] at this
  · refine h3.imp_of_mem ?_
    intro s t hs ht hne hc
    have hcell := (sameCell_iff hr (hG.low s (h2.subset hs)) (hG.low t (h2.subset ht))).mp hc
    apply hne
    unfold cellId
    rw [hcell 0, hcell 1, hcell 2]
  · intro hface p hp
    obtain ⟨s, hs, he⟩ := h4 p hp
    have hsP := h2.subset hs
    refine ⟨s, hs, (sameCell_iff hr (hG.low p hp) (hG.low s hsP)).mpr ?_⟩
    obtain ⟨e0, e1, e2⟩ := digits_inj (cellOf_lt hr (hG.low s hsP 1) (hface s hsP).1) (cellOf_lt hr (hG.low s hsP 2) (hface s hsP).2)
      (cellOf_lt hr (hG.low p hp 1) (hface p hp).1) (cellOf_lt hr (hG.low p hp 2) (hface p hp).2) he
    intro k
    fin_cases k
    · exact e0.symm
    · exact e1.symm
    · exact e2.symm

/-- C77 fails for every input with two points in different cells that have the same number, whatever the order of the insertions: one of
the two cells has no point in the sample. -/
theorem c77_collision {top : K} (htop : ∀ p ∈ P, p 0 ≠ top) {ord : List ℕ} (hord : ord.Perm (List.range P.length))
    {di : ℕ} (hdi : 1 ≤ di) (hmax : di ≤ 2000000) {lo : Fin 3 → K} {r : K} (hG : Grid P di lo r) (hr : 0 < r) {p q : P3 K}
    (hp : p ∈ P) (hq : q ∈ P) (hpq : ¬ SameCell lo r p q) (hid : cellId di lo r p = cellId di lo r q) :
    ∃ S, gridSample top ord di P = .ok S ∧ ¬ ((∃ s ∈ S, SameCell lo r p s) ∧ ∃ s ∈ S, SameCell lo r q s) := by
  obtain ⟨S, h1, h2, h3, h4⟩ := gridSample_ok htop hord hdi hmax hG hr
  refine ⟨S, h1, ?_⟩
  rintro ⟨⟨s, hs, hps⟩, t, ht, hqt⟩
  have lp := hG.low p hp
  have lq := hG.low q hq
  have ls := hG.low s (h2.subset hs)
  have lt := hG.low t (h2.subset ht)
  have c1 := (sameCell_iff hr lp ls).mp hps
  have c2 := (sameCell_iff hr lq lt).mp hqt
  have he : cellId di lo r s = cellId di lo r t := by
    have e1 : cellId di lo r p = cellId di lo r s := by unfold cellId; rw [c1 0, c1 1, c1 2]
    have e2 : cellId di lo r q = cellId di lo r t := by unfold cellId; rw [c2 0, c2 1, c2 2]
    rw [← e1, ← e2, hid]
  have hst : s = t := by
    by_contra hne
    have : Std.Symm fun s t : P3 K => cellId di lo r s ≠ cellId di lo r t := ⟨fun _ _ h e => h e.symm⟩
    exact absurd he (h3.forall hs ht hne)
  subst hst
  apply hpq
  rw [sameCell_iff hr lp lq]
  intro k
  rw [c1 k, c2 k]

/-- C77 fails if all points are equal: the conversion of NaN to an integer is undefined. -/
theorem c77_equal_ub (top : K) (ord : List ℕ) {di : ℕ} (hmax : di ≤ 2000000) (p : P3 K) (n : ℕ) :
    gridSample top ord di (List.replicate (n + 1) p) = .error .ub := by
  have hne : List.replicate (n + 1) p ≠ [] := by simp
  have h : span (List.replicate (n + 1) p) = 0 := by
    obtain ⟨k, hk⟩ := span_eq hne
    obtain ⟨a, ha, ea⟩ := lowOf_mem hne k
    obtain ⟨b, hb, eb⟩ := highOf_mem hne k
    rw [← hk, ← ea, ← eb, List.eq_of_mem_replicate ha, List.eq_of_mem_replicate hb, sub_self]
  unfold gridSample
  rw [if_neg (by omega), if_neg hne, h, zero_div, if_pos rfl]

/-! Instances. -/

/-- Three points; the first two are in different cells with the same number. -/
def gridBad : List (P3 ℚ) := [![0, 0, 2], ![0, 1, 0], ![2, 0, 0]]

theorem gridBad_grid : Grid gridBad 2 (fun _ => 0) 1 := by
  refine ⟨by decide +kernel, by decide +kernel, by decide +kernel, ⟨0, by decide +kernel⟩⟩

/-- C77 fails for three points and two cells per side: whatever the order of the insertions, a cell has no point in the sample. -/
theorem c77_collision_false {ord : List ℕ} (hord : ord.Perm (List.range 3)) :
    ∃ S, gridSample 1000 ord 2 gridBad = .ok S ∧ ¬ ∀ p ∈ gridBad, ∃ s ∈ S, SameCell (fun _ => 0) 1 p s := by
  obtain ⟨S, h1, h2⟩ := c77_collision (top := 1000) (P := gridBad) (by decide +kernel) hord (by norm_num) (by norm_num) gridBad_grid
    (by norm_num) (p := ![0, 0, 2]) (q := ![0, 1, 0]) (by decide +kernel) (by decide +kernel) (by
      rw [sameCell_iff (by norm_num) (by decide +kernel) (by decide +kernel)]
      decide +kernel) (by decide +kernel)
  exact ⟨S, h1, fun h => h2 ⟨h _ (by decide +kernel), h _ (by decide +kernel)⟩⟩

/-- Points that meet the hypotheses of `c77_grid_partial`, with the longest side in the first direction. -/
def gridGood : List (P3 ℚ) := [![0, 0, 0], ![1 / 2, 1 / 3, 0], ![3, 1, 1], ![4, 0, 1 / 2], ![3, 3 / 2, 1]]

theorem gridGood_grid : Grid gridGood 2 (fun _ => 0) 2 := by
  refine ⟨by decide +kernel, by decide +kernel, by decide +kernel, ⟨0, by decide +kernel⟩⟩

example : ∃ S, gridSample 1000 [4, 1, 3, 0, 2] 2 gridGood = .ok S ∧ ∀ p ∈ gridGood, ∃ s ∈ S, SameCell (fun _ => 0) 2 p s := by
  obtain ⟨S, h1, _, _, _, _, h2⟩ := c77_grid_partial (top := 1000) (P := gridGood) (ord := [4, 1, 3, 0, 2]) (by decide +kernel)
    (by decide) (di := 2) (by norm_num) (by norm_num) gridGood_grid (by norm_num)
  exact ⟨S, h1, h2 (by decide +kernel)⟩

/-- The sample depends on the order of the insertions. -/
example : (gridSample 1000 [4, 1, 3, 0, 2] 2 gridGood).toOption = some [![1 / 2, 1 / 3, 0], ![4, 0, 1 / 2], ![3, 3 / 2, 1]] ∧
    (gridSample 1000 [0, 1, 2, 3, 4] 2 gridGood).toOption = some [![0, 0, 0], ![3, 1, 1], ![4, 0, 1 / 2]] := by
  constructor <;> decide +kernel

end Verif.SampleHull
