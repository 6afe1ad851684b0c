import Mathlib.Data.Finset.Powerset
import Mathlib.Data.Finset.Card
import Verif.Seb.ScanModel
import Verif.Seb.WelzlProps

set_option linter.unusedSectionVars false
set_option linter.unusedVariables false

/-!
Property C37: the orthant-scan and sampling routines return balls that contain all points.
-/

namespace Verif.Seb

variable {K : Type} [Field K] [LinearOrder K] [IsStrictOrderedRing K] {dim : ℕ}

theorem quadrant_lt (p c : Point K dim) : quadrant p c < 2 ^ dim := by
  have h1 : quadrant p c ≤ ∑ i : Fin dim, 2 ^ (i : ℕ) := by
    refine Finset.sum_le_sum fun i _ => ?_
    split <;> simp
  have h2 : ∀ n : ℕ, ∑ i : Fin n, 2 ^ (i : ℕ) + 1 = 2 ^ n := by
    intro n
    induction n with
    | zero => simp
    | succ n ih =>
      rw [Fin.sum_univ_castSucc]
      simp only [Fin.val_castSucc, Fin.val_last]
      rw [pow_succ]
      omega
  have := h2 dim
  omega

/-- Entries of a table stand for outside points of `A` in the orthants `o < 2 ^ dim`. -/
def TabOK (eps : K) (c : Point K dim) (r2 : K) (A : List (Point K dim)) (t : Table K) : Prop :=
  ∀ o i D, t o = some (i, D) → i < A.length ∧ o < 2 ^ dim ∧ within eps (distSqr (A.getD i 0) c) r2 = false

theorem scanStep_ok (eps : K) (c : Point K dim) (r2 : K) (A : List (Point K dim)) (t : Table K) (i : ℕ)
    (hi : i < A.length) (h : TabOK eps c r2 A t) :
    TabOK eps c r2 A (scanStep eps c r2 A t i) ∧ (∀ o, t o ≠ none → scanStep eps c r2 A t i o ≠ none) ∧
      (within eps (distSqr (A.getD i 0) c) r2 = false →
        scanStep eps c r2 A t i (quadrant c (A.getD i 0)) ≠ none) := by
  unfold scanStep
  simp only []
  by_cases hw : within eps (distSqr (A.getD i 0) c) r2 = true
  · rw [if_pos hw]
    refine ⟨h, fun o ho => ho, fun h' => ?_⟩
    rw [h'] at hw
    cases hw
  · rw [if_neg hw]
    have hf : within eps (distSqr (A.getD i 0) c) r2 = false := by simpa using hw
    have hup : TabOK eps c r2 A (Function.update t (quadrant c (A.getD i 0)) (some (i, distSqr (A.getD i 0) c))) := by
      intro o j D hj
      by_cases ho : o = quadrant c (A.getD i 0)
      · subst ho
        rw [Function.update_self] at hj
        obtain ⟨rfl, rfl⟩ := Prod.mk.inj (Option.some.inj hj)
        exact ⟨hi, quadrant_lt _ _, hf⟩
      · rw [Function.update_of_ne ho] at hj
        exact h o j D hj
    have hup2 : ∀ o, t o ≠ none →
        Function.update t (quadrant c (A.getD i 0)) (some (i, distSqr (A.getD i 0) c)) o ≠ none := by
      intro o ho
      by_cases ho' : o = quadrant c (A.getD i 0)
      · subst ho'
        simp
      · rwa [Function.update_of_ne ho']
    have hup3 : Function.update t (quadrant c (A.getD i 0)) (some (i, distSqr (A.getD i 0) c))
        (quadrant c (A.getD i 0)) ≠ none := by
      rw [Function.update_self]
      exact Option.some_ne_none _
    rcases hj : t (quadrant c (A.getD i 0)) with _ | ⟨j, D'⟩
    · exact ⟨hup, hup2, fun _ => hup3⟩
    · by_cases hD : within eps (distSqr (A.getD i 0) c) D' = true
      · simp only [if_pos hD]
        exact ⟨h, fun o ho => ho, fun _ => by rw [hj]; exact Option.some_ne_none _⟩
      · simp only [if_neg hD]
        exact ⟨hup, hup2, fun _ => hup3⟩

theorem scan_foldl (eps : K) (c : Point K dim) (r2 : K) (A : List (Point K dim)) (L : List ℕ) (t : Table K)
    (hL : ∀ i ∈ L, i < A.length) (h : TabOK eps c r2 A t) :
    TabOK eps c r2 A (L.foldl (scanStep eps c r2 A) t) ∧
      (∀ o, t o ≠ none → L.foldl (scanStep eps c r2 A) t o ≠ none) ∧
      ∀ i ∈ L, within eps (distSqr (A.getD i 0) c) r2 = false →
        L.foldl (scanStep eps c r2 A) t (quadrant c (A.getD i 0)) ≠ none := by
  induction L generalizing t with
  | nil => exact ⟨h, fun o ho => ho, by simp⟩
  | cons j L ih =>
    obtain ⟨h1, h2, h3⟩ := scanStep_ok eps c r2 A t j (hL j (by simp)) h
    obtain ⟨i1, i2, i3⟩ := ih (scanStep eps c r2 A t j) (fun i hi => hL i (by simp [hi])) h1
    rw [List.foldl_cons]
    refine ⟨i1, fun o ho => i2 o (h2 o ho), fun i hi hw => ?_⟩
    rcases List.mem_cons.mp hi with rfl | hi
    · exact i2 _ (h3 hw)
    · exact i3 i hi hw

theorem scanRange_ok (eps : K) (c : Point K dim) (r2 : K) (A : List (Point K dim)) (s e : ℕ) (he : e ≤ A.length) :
    TabOK eps c r2 A (scanRange eps c r2 A s e) ∧
      ∀ i, s ≤ i → i < e → within eps (distSqr (A.getD i 0) c) r2 = false →
        scanRange eps c r2 A s e (quadrant c (A.getD i 0)) ≠ none := by
  have hL : ∀ i ∈ List.range' s (e - s), i < A.length := by
    intro i hi
    rw [List.mem_range'_1] at hi
    omega
  obtain ⟨h1, _, h3⟩ := scan_foldl eps c r2 A (List.range' s (e - s)) (fun _ => none) hL (by
    intro o i D h
    simp at h)
  refine ⟨h1, fun i hi1 hi2 hw => h3 i ?_ hw⟩
  rw [List.mem_range'_1]
  omega

theorem combine_ok (eps : K) (c : Point K dim) (r2 : K) (A : List (Point K dim)) (g loc : Table K)
    (hg : TabOK eps c r2 A g) (hl : TabOK eps c r2 A loc) :
    TabOK eps c r2 A (combine g loc) ∧ ∀ o, (g o ≠ none ∨ loc o ≠ none) → combine g loc o ≠ none := by
  constructor
  · intro o i D h
    unfold combine at h
    split at h
    · exact hg o i D h
    · rename_i i' D' h1
      split at h
      · exact hl o i D (by rw [h1, h])
      · rename_i j D'' h2
        split at h
        · exact hl o i D (by rw [h1, h])
        · exact hg o i D (by rw [h2, h])
  · intro o ho
    unfold combine
    split
    · rename_i h1
      rcases ho with ho | ho
      · exact ho
      · exact absurd h1 ho
    · split
      · simp
      · split <;> simp

theorem blocks_ok (eps : K) (c : Point K dim) (r2 : K) (A : List (Point K dim)) (b : ℕ) (L : List ℕ) (g : Table K)
    (hg : TabOK eps c r2 A g) :
    TabOK eps c r2 A (L.foldl (fun g p => combine g (scanRange eps c r2 A (p * b) (min ((p + 1) * b) A.length))) g) ∧
      (∀ o, g o ≠ none →
        L.foldl (fun g p => combine g (scanRange eps c r2 A (p * b) (min ((p + 1) * b) A.length))) g o ≠ none) ∧
      ∀ p ∈ L, ∀ i, p * b ≤ i → i < (p + 1) * b → i < A.length → within eps (distSqr (A.getD i 0) c) r2 = false →
        L.foldl (fun g p => combine g (scanRange eps c r2 A (p * b) (min ((p + 1) * b) A.length))) g
          (quadrant c (A.getD i 0)) ≠ none := by
  induction L generalizing g with
  | nil => exact ⟨hg, fun o ho => ho, by simp⟩
  | cons q L ih =>
    obtain ⟨s1, s2⟩ := scanRange_ok eps c r2 A (q * b) (min ((q + 1) * b) A.length) (min_le_right _ _)
    obtain ⟨c1, c2⟩ := combine_ok eps c r2 A g _ hg s1
    obtain ⟨i1, i2, i3⟩ := ih _ c1
    rw [List.foldl_cons]
    refine ⟨i1, fun o ho => i2 o (c2 o (Or.inl ho)), fun p hp i h1 h2 h3 hw => ?_⟩
    rcases List.mem_cons.mp hp with rfl | hp
    · exact i2 _ (c2 _ (Or.inr (s2 i h1 (lt_min h2 h3) hw)))
    · exact i3 p hp i h1 h2 h3 hw

/-- A scan returns points of the array outside the ball, and none only if there are none. -/
theorem ortScan_spec (eps : K) (W : ℕ) (hW : 0 < W) (c : Point K dim) (r2 : K) (A : List (Point K dim)) :
    (∀ p ∈ ortScan eps W c r2 A, p ∈ A ∧ within eps (distSqr p c) r2 = false) ∧
      (ortScan eps W c r2 A = [] → ∀ p ∈ A, within eps (distSqr p c) r2 = true) := by
  unfold ortScan
  simp only []
  set t : Table K := if A.length < 2000 then scanRange eps c r2 A 0 A.length
    else (List.range W).foldl (fun g p => combine g (scanRange eps c r2 A (p * ((A.length + W - 1) / W))
      (min ((p + 1) * ((A.length + W - 1) / W)) A.length))) fun _ => none with ht
  have hok : TabOK eps c r2 A t ∧ ∀ i < A.length, within eps (distSqr (A.getD i 0) c) r2 = false →
      t (quadrant c (A.getD i 0)) ≠ none := by
    rw [ht]
    split
    · obtain ⟨h1, h2⟩ := scanRange_ok eps c r2 A 0 A.length le_rfl
      exact ⟨h1, fun i hi => h2 i (by omega) hi⟩
    · rename_i hlen
      obtain ⟨h1, _, h3⟩ := blocks_ok eps c r2 A ((A.length + W - 1) / W) (List.range W) (fun _ => none) (by
        intro o i D h
        simp at h)
      refine ⟨h1, fun i hi hw => ?_⟩
      set b := (A.length + W - 1) / W with hb
      have hb0 : 0 < b := Nat.div_pos (by omega) hW
      have hcov : A.length ≤ W * b := by
        have := Nat.div_add_mod (A.length + W - 1) W
        have := Nat.mod_lt (A.length + W - 1) hW
        rw [← hb] at *
        omega
      have hdm := Nat.div_add_mod i b
      have hml := Nat.mod_lt i hb0
      refine h3 (i / b) ?_ i ?_ ?_ hi hw
      · rw [List.mem_range, Nat.div_lt_iff_lt_mul hb0]
        omega
      · exact Nat.div_mul_le_self i b
      · rw [Nat.mul_comm] at hdm
        rw [Nat.add_mul, Nat.one_mul]
        omega
  constructor
  · intro p hp
    obtain ⟨o, _, ho⟩ := List.mem_filterMap.mp hp
    obtain ⟨⟨i, D⟩, he, rfl⟩ := Option.map_eq_some_iff.mp ho
    obtain ⟨h1, _, h3⟩ := hok.1 o i D he
    refine ⟨?_, h3⟩
    show A.getD i 0 ∈ A
    rw [List.getD_eq_getElem _ _ h1]
    exact List.getElem_mem h1
  · intro hnil p hp
    by_contra hw
    obtain ⟨i, hi, rfl⟩ := List.mem_iff_getElem.mp hp
    have hget : A.getD i 0 = A[i] := List.getD_eq_getElem _ _ hi
    have := hok.2 i hi (by rw [hget]; simpa using hw)
    obtain ⟨⟨j, D⟩, hj⟩ := Option.ne_none_iff_exists'.mp this
    have hmem : A.getD j 0 ∈ (List.range (2 ^ dim)).filterMap fun o => (t o).map fun e => A.getD e.1 0 :=
      List.mem_filterMap.mpr ⟨quadrant c (A.getD i 0), List.mem_range.mpr (quadrant_lt _ _), by rw [hj]; rfl⟩
    rw [hnil] at hmem
    simp at hmem

theorem contain_eq_within (eps : K) (B : Ball K dim) (p : Point K dim) :
    B.contain eps p = within eps (distSqr p B.center) B.r2 := by
  unfold Ball.contain
  rw [distSqr_shift]
  rfl

theorem scanLoop_contain (eps : K) (W : ℕ) (hW : 0 < W) (solve : List (Point K dim) → Except Err (Ball K dim))
    (P : List (Point K dim)) (fuel : ℕ) (B R : Ball K dim) (h : scanLoop eps W solve P fuel B = .ok R) :
    ∀ p ∈ P, R.contain eps p = true := by
  induction fuel generalizing B with
  | zero => cases h
  | succ fuel ih =>
    rw [scanLoop] at h
    split at h
    · rename_i hnil
      rw [← Except.ok.inj h]
      intro p hp
      rw [contain_eq_within]
      exact (ortScan_spec eps W hW B.center B.r2 P).2 hnil p hp
    · cases hs : solve (B.sup ++ ortScan eps W B.center B.r2 P) with
      | error e =>
        rw [hs] at h
        cases h
      | ok B' =>
        rw [hs] at h
        exact ih B' h

/-- **C37** (scan): whatever the inner solver does, for any epsilon and number of workers, if the routine returns a ball
then `contain` holds for every input point: the point is within the radius plus epsilon (see `c50_contain`). -/
theorem c37_scan_contain (eps : K) (W : ℕ) (hW : 0 < W) (solve : List (Point K dim) → Except Err (Ball K dim))
    (fuel : ℕ) (P : List (Point K dim)) (B : Ball K dim) (h : scanCompute eps W solve fuel P = .ok B) :
    ∀ p ∈ P, B.contain eps p = true := by
  unfold scanCompute at h
  split at h
  · cases h
  · cases hs : solve (P.take (dim * 3)) with
    | error e =>
      rw [hs] at h
      cases h
    | ok B' =>
      rw [hs] at h
      exact scanLoop_contain eps W hW solve P fuel B' B h

/-- **C37** (sampling). -/
theorem c37_sampling_contain (eps : K) (W : ℕ) (hW : 0 < W) (solve : List (Point K dim) → Except Err (Ball K dim))
    (fuel : ℕ) (P : List (Point K dim)) (B : Ball K dim) (h : sampleCompute eps W solve fuel P = .ok B) :
    ∀ p ∈ P, B.contain eps p = true := by
  unfold sampleCompute at h
  split at h
  · cases h
  · cases hs : solve (P.take (dim * 3)) with
    | error e =>
      rw [hs] at h
      cases h
    | ok B' =>
      rw [hs] at h
      simp only [Except.bind] at h
      split at h
      · cases h
      · exact scanLoop_contain eps W hW solve P fuel _ B h

/-! ### Exact arithmetic: termination and minimality -/

theorem Mb.centre_unique {P : List (Point K dim)} {c c' : Point K dim} {ρ ρ' : K} (h : Mb P [] c ρ)
    (h' : Feas P [] c' ρ') (hle : ρ' ≤ ρ) : c' = c := by
  have hmix := h.2 (fun i => (1 - 1 / 2) * c i + 1 / 2 * c' i)
    ((1 - 1 / 2) * ρ + 1 / 2 * ρ' - 1 / 2 * (1 - 1 / 2) * distSqr c c') ⟨?_, by simp⟩
  · have h0 := distSqr_nonneg c c'
    have : distSqr c c' = 0 := by linarith
    exact (distSqr_eq_zero.mp this).symm
  · intro p hp
    rw [distSqr_mix]
    have := h.1.1 p hp
    have := h'.1 p hp
    linarith

/-- What the loops keep in exact arithmetic: the ball is the smallest one of some of the points, its support. -/
structure ScanInv (P : List (Point K dim)) (B : Ball K dim) : Prop where
  sub : B.sup ⊆ P
  mb : Mb B.sup [] B.center B.r2

theorem ScanInv.nonempty {P : List (Point K dim)} {B : Ball K dim} (h : ScanInv P B) : B.sup ≠ [] := by
  intro hnil
  have := h.mb.2 B.center (B.r2 - 1) ⟨by rw [hnil]; simp, by simp⟩
  linarith

theorem within_zero (D R : K) : within 0 D R = true ↔ D ≤ R := by
  unfold within
  simp only [Bool.or_eq_true, decide_eq_true_eq, mul_zero, zero_mul, sub_zero]
  constructor
  · rintro (h | h)
    · linarith
    · have := mul_self_nonneg (D - R)
      have := mul_self_eq_zero.mp (le_antisymm h this)
      linarith
  · intro h
    left
    linarith

/-- The solver used: the plain algorithm without epsilon. -/
theorem solve_step (junk : ℕ → K) (hd : 2 ≤ dim) (pick : List ℕ → ℕ) (hpick : ∀ L, L ≠ [] → pick L ∈ L)
    (P Q : List (Point K dim)) (hQ : Q ⊆ P) (h2 : 2 ≤ Q.length) :
    ∃ B, compute plain plain 0 junk pick Q = .ok B ∧ ScanInv P B ∧ IsSmallestBall Q B.center B.r2 := by
  rcases compute_ok False plain plain (plain_pivOK _) (plain_pivOK _) junk hd pick hpick Q Q h2 (List.Perm.refl _) with
    ⟨h, _⟩ | ⟨B, h, hs, hc⟩
  · exact h.elim
  · refine ⟨B, h, ⟨?_, hc.sup_mb⟩, hs⟩
    obtain ⟨T, hT, hTQ⟩ := hc.split
    rw [hT]
    intro x hx
    exact hQ (hTQ (by simpa using hx))

/-- One recomputation: the radius grows. -/
theorem scan_grow (junk : ℕ → K) (hd : 2 ≤ dim) (pick : List ℕ → ℕ) (hpick : ∀ L, L ≠ [] → pick L ∈ L)
    (P outs : List (Point K dim)) (B : Ball K dim) (hI : ScanInv P B) (hne : outs ≠ [])
    (ho : ∀ p ∈ outs, p ∈ P ∧ within 0 (distSqr p B.center) B.r2 = false) :
    ∃ B', compute plain plain 0 junk pick (B.sup ++ outs) = .ok B' ∧ ScanInv P B' ∧ B.r2 < B'.r2 := by
  have hl1 : 0 < B.sup.length := List.length_pos_iff.mpr hI.nonempty
  have hl2 : 0 < outs.length := List.length_pos_iff.mpr hne
  obtain ⟨B', h, hI', hs⟩ := solve_step junk hd pick hpick P (B.sup ++ outs) (by
    intro x hx
    rcases List.mem_append.mp hx with hx | hx
    · exact hI.sub hx
    · exact (ho x hx).1) (by rw [List.length_append]; omega)
  refine ⟨B', h, hI', ?_⟩
  by_contra hle
  have hf : Feas B.sup [] B'.center B'.r2 := ⟨fun p hp => hs.1 p (by simp [hp]), by simp⟩
  have hc := hI.mb.centre_unique hf (not_lt.mp hle)
  obtain ⟨p, hp⟩ := List.exists_mem_of_ne_nil outs hne
  have h1 := hs.1 p (by simp [hp])
  have h2 := (ho p hp).2
  rw [hc] at h1
  have : within 0 (distSqr p B.center) B.r2 = true := (within_zero _ _).mpr (le_trans h1 (not_lt.mp hle))
  rw [this] at h2
  cases h2

theorem Mb.set_congr {P P' : List (Point K dim)} {c : Point K dim} {ρ : K} (h : Mb P [] c ρ)
    (hP : ∀ x, x ∈ P ↔ x ∈ P') : Mb P' [] c ρ :=
  ⟨⟨fun p hp => h.1.1 p ((hP p).mpr hp), by simp⟩,
    fun c' ρ' hf => h.2 c' ρ' ⟨fun p hp => hf.1 p ((hP p).mp hp), by simp⟩⟩

open Classical in
/-- The subsets of the input whose smallest ball is larger than a given one. -/
noncomputable def larger (P : List (Point K dim)) (r : K) : Finset (Finset (Point K dim)) :=
  P.toFinset.powerset.filter fun U => ∃ c ρ, Mb U.toList [] c ρ ∧ r < ρ

theorem larger_lt (P : List (Point K dim)) (r : K) (B : Ball K dim) (hI : ScanInv P B) (h : r < B.r2) :
    (larger P B.r2).card < (larger P r).card := by
  classical
  apply Finset.card_lt_card
  have hmb : Mb B.sup.toFinset.toList [] B.center B.r2 := hI.mb.set_congr fun x => by simp
  rw [Finset.ssubset_iff_of_subset]
  · refine ⟨B.sup.toFinset, ?_, ?_⟩
    · unfold larger
      rw [Finset.mem_filter, Finset.mem_powerset]
      refine ⟨?_, B.center, B.r2, ?_, h⟩
      · intro x hx
        rw [List.mem_toFinset] at *
        exact hI.sub hx
      · convert hmb
    · unfold larger
      rw [Finset.mem_filter]
      rintro ⟨_, c, ρ, h1, h2⟩
      have hmb' : Mb B.sup [] c ρ := h1.set_congr fun x => by simp
      have := hmb'.2 B.center B.r2 hI.mb.1
      linarith
  · intro U hU
    unfold larger at *
    rw [Finset.mem_filter] at *
    obtain ⟨h1, c, ρ, h2, h3⟩ := hU
    exact ⟨h1, c, ρ, h2, by linarith⟩

theorem scanLoop_exact (W : ℕ) (hW : 0 < W) (junk : ℕ → K) (hd : 2 ≤ dim) (pick : List ℕ → ℕ)
    (hpick : ∀ L, L ≠ [] → pick L ∈ L) (P : List (Point K dim)) (fuel : ℕ) (B : Ball K dim) (hI : ScanInv P B)
    (hf : (larger P B.r2).card < fuel) :
    ∃ R, scanLoop 0 W (compute plain plain 0 junk pick) P fuel B = .ok R ∧ IsSmallestBall P R.center R.r2 := by
  induction fuel generalizing B with
  | zero => omega
  | succ fuel ih =>
    rw [scanLoop]
    obtain ⟨s1, s2⟩ := ortScan_spec 0 W hW B.center B.r2 P
    split
    · rename_i hnil
      refine ⟨B, rfl, fun p hp => (within_zero _ _).mp (s2 hnil p hp), fun c' ρ' h => ?_⟩
      exact hI.mb.2 c' ρ' ⟨fun p hp => h p (hI.sub hp), by simp⟩
    · rename_i hne
      obtain ⟨B', h, hI', hlt⟩ := scan_grow junk hd pick hpick P _ B hI hne s1
      rw [h]
      exact ih B' hI' (by have := larger_lt P B.r2 B' hI' hlt; omega)

theorem larger_le (P : List (Point K dim)) (r : K) : (larger P r).card ≤ 2 ^ P.length := by
  classical
  refine le_trans (Finset.card_filter_le _ _) ?_
  rw [Finset.card_powerset]
  refine Nat.pow_le_pow_right (by omega) ?_
  convert List.toFinset_card_le P

theorem sample_len (P : List (Point K dim)) (hd : 2 ≤ dim) (hn : dim * 3 ≤ P.length) :
    2 ≤ (P.take (dim * 3)).length := by
  rw [List.length_take]
  omega

/-- **C37** (scan, without epsilon): from `3 * dim` points on, in dimension two or more, the scan ends after at most
`2 ^ n` rounds and returns the smallest enclosing ball. -/
theorem c37_scan_exact (W : ℕ) (hW : 0 < W) (junk : ℕ → K) (hd : 2 ≤ dim) (pick : List ℕ → ℕ)
    (hpick : ∀ L, L ≠ [] → pick L ∈ L) (P : List (Point K dim)) (hn : dim * 3 ≤ P.length) (fuel : ℕ)
    (hf : 2 ^ P.length < fuel) :
    ∃ R, scanCompute 0 W (compute plain plain 0 junk pick) fuel P = .ok R ∧ IsSmallestBall P R.center R.r2 := by
  unfold scanCompute
  rw [if_neg (by omega)]
  obtain ⟨B, h, hI, _⟩ := solve_step junk hd pick hpick P (P.take (dim * 3)) (List.take_subset _ _)
    (sample_len P hd hn)
  rw [h]
  exact scanLoop_exact W hW junk hd pick hpick P fuel B hI (lt_of_le_of_lt (larger_le P _) hf)

theorem sampleLoop_exact (W : ℕ) (hW : 0 < W) (junk : ℕ → K) (hd : 2 ≤ dim) (pick : List ℕ → ℕ)
    (hpick : ∀ L, L ≠ [] → pick L ∈ L) (P : List (Point K dim)) (step fuel scanned : ℕ) (B : Ball K dim)
    (hI : ScanInv P B) (hf : P.length - scanned < fuel) :
    sampleLoop 0 W (compute plain plain 0 junk pick) P step fuel scanned B = .error .ub ∧
        ¬ (step = 0 ∨ (step ∣ P.length ∧ step ∣ scanned)) ∨
      ∃ R, sampleLoop 0 W (compute plain plain 0 junk pick) P step fuel scanned B = .ok R ∧ ScanInv P R := by
  induction fuel generalizing scanned B with
  | zero => omega
  | succ fuel ih =>
    rw [sampleLoop]
    by_cases h1 : P.length ≤ scanned
    · rw [if_pos h1]
      exact Or.inr ⟨B, rfl, hI⟩
    rw [if_neg h1]
    by_cases h2 : P.length < scanned + step
    · rw [if_pos h2]
      refine Or.inl ⟨rfl, ?_⟩
      rintro (h3 | ⟨⟨a, ha⟩, ⟨b, hb⟩⟩)
      · omega
      · rw [ha, hb] at h1 h2
        have hb1 : b < a := by
          by_contra hc
          exact h1 (Nat.mul_le_mul_left _ (not_lt.mp hc))
        have : step * (b + 1) ≤ step * a := Nat.mul_le_mul_left _ hb1
        rw [Nat.mul_add, Nat.mul_one] at this
        omega
    rw [if_neg h2]
    obtain ⟨s1, _⟩ := ortScan_spec 0 W hW B.center B.r2 ((P.drop scanned).take step)
    by_cases hnil : ortScan 0 W B.center B.r2 ((P.drop scanned).take step) = []
    · rw [if_pos hnil]
      exact Or.inr ⟨B, rfl, hI⟩
    · rw [if_neg hnil]
      have hstep : step ≠ 0 := by
        rintro rfl
        obtain ⟨p, hp⟩ := List.exists_mem_of_ne_nil _ hnil
        have := (s1 p hp).1
        simp at this
      obtain ⟨B', h, hI', _⟩ := scan_grow junk hd pick hpick P _ B hI hnil fun p hp =>
        ⟨List.mem_of_mem_drop (List.mem_of_mem_take (s1 p hp).1), (s1 p hp).2⟩
      rw [h]
      rcases ih (scanned + step) B' hI' (by omega) with ⟨h3, h4⟩ | h3
      · refine Or.inl ⟨h3, ?_⟩
        rintro (h5 | ⟨h5, h6⟩)
        · exact h4 (Or.inl h5)
        · exact h4 (Or.inr ⟨h5, dvd_add h6 (dvd_refl _)⟩)
      · exact Or.inr h3

/-- **C37** (sampling, without epsilon): for at least `3 * dim` points, if the step of one per cent is zero or divides the
number of points, the routine returns the smallest enclosing ball. Otherwise the last slice of the sampling phase may
reach behind the array (`c37_sampling_ub`). -/
theorem c37_sampling_exact (W : ℕ) (hW : 0 < W) (junk : ℕ → K) (hd : 2 ≤ dim) (pick : List ℕ → ℕ)
    (hpick : ∀ L, L ≠ [] → pick L ∈ L) (P : List (Point K dim)) (hn : dim * 3 ≤ P.length) (fuel : ℕ)
    (hf : 2 ^ P.length < fuel) (hstep : P.length / 100 = 0 ∨ P.length / 100 ∣ P.length) :
    ∃ R, sampleCompute 0 W (compute plain plain 0 junk pick) fuel P = .ok R ∧ IsSmallestBall P R.center R.r2 := by
  unfold sampleCompute
  rw [if_neg (by omega)]
  obtain ⟨B, h, hI, _⟩ := solve_step junk hd pick hpick P (P.take (dim * 3)) (List.take_subset _ _)
    (sample_len P hd hn)
  rw [h]
  simp only [Except.bind]
  rcases sampleLoop_exact W hW junk hd pick hpick P (P.length / 100) (P.length + 1) 0 B hI (by omega) with
    ⟨_, h2⟩ | ⟨B1, h1, hI1⟩
  · exfalso
    apply h2
    rcases hstep with h | h
    · exact Or.inl h
    · exact Or.inr ⟨h, dvd_zero _⟩
  · rw [h1]
    exact scanLoop_exact W hW junk hd pick hpick P fuel B1 hI1 (lt_of_le_of_lt (larger_le P _) hf)

/-- C37 with fewer than `3 * dim` points: both routines read behind the array. -/
theorem c37_short_ub (eps : K) (W : ℕ) (solve : List (Point K dim) → Except Err (Ball K dim)) (fuel : ℕ)
    (P : List (Point K dim)) (h : P.length < dim * 3) :
    scanCompute eps W solve fuel P = .error .ub ∧ sampleCompute eps W solve fuel P = .error .ub := by
  unfold scanCompute sampleCompute
  rw [if_pos h, if_pos h]
  exact ⟨rfl, rfl⟩

/-- Non-trivial run: seven points of the plane, of which the last is outside the ball of the first six. -/
example : (scanCompute 0 96 (compute plain plain 0 0 fun L => L.headD 0) 5
    [(![0, 0] : Point ℚ 2), ![2, 0], ![1, 1], ![0, 1], ![1, 0], ![1, 1 / 2], ![0, 4]]).toOption.map
      (fun B => (B.center, B.r2)) = some (![1, 2], 5) := by decide +kernel

end Verif.Seb
