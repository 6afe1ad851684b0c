import Verif.Dataset.UniformModel
import Mathlib.Tactic.Linarith
import Mathlib.Tactic.Positivity
import Mathlib.Tactic.FieldSimp
import Mathlib.Tactic.Ring

set_option linter.unusedSectionVars false
set_option linter.unusedVariables false

/-! Lemmas for property C72. -/

namespace Verif.Dataset

variable {d : ℕ}

/-! ### Parallel loops -/

theorem parFor_ok {off : ℕ} {f : ℕ → Pt d → Except Err (Pt d)} (ord : List ℕ) (P : List (Pt d)) (hnd : ord.Nodup)
    (hlt : ∀ i ∈ ord, off + i < P.length) (hf : ∀ i ∈ ord, ∀ p, ∃ q, f i p = .ok q) :
    ∃ P', parFor off f ord P = .ok P' ∧ P'.length = P.length ∧
      (∀ i ∈ ord, ∃ p q, P[off + i]? = some p ∧ f i p = .ok q ∧ P'[off + i]? = some q) ∧
      (∀ j, (∀ i ∈ ord, j ≠ off + i) → P'[j]? = P[j]?) := by
  induction ord generalizing P with
  | nil => exact ⟨P, rfl, rfl, by simp, fun _ _ => rfl⟩
  | cons i ord ih =>
    obtain ⟨hi, hnd'⟩ := List.nodup_cons.1 hnd
    have hl := hlt i List.mem_cons_self
    obtain ⟨q, hq⟩ := hf i List.mem_cons_self (P[off + i])
    have hs : P[off + i]? = some P[off + i] := List.getElem?_eq_getElem hl
    have hstep : loopStep off f P i = .ok (P.set (off + i) q) := by
      unfold loopStep
      rw [hs]
      simp only [hq, Except.map]
    obtain ⟨P', h1, h2, h3, h4⟩ := ih (P.set (off + i) q) hnd' (fun j hj => by
      rw [List.length_set]
      exact hlt j (List.mem_cons_of_mem _ hj)) fun j hj => hf j (List.mem_cons_of_mem _ hj)
    refine ⟨P', by simp only [parFor, hstep, Except.bind]; exact h1, h2.trans List.length_set, ?_, ?_⟩
    · intro j hj
      rcases List.mem_cons.1 hj with rfl | hj
      · refine ⟨_, q, hs, hq, ?_⟩
        rw [h4 _ (fun k hk he => hi (by
          have : j = k := by omega
          rw [this]; exact hk)), List.getElem?_set_self hl]
      · obtain ⟨p, q', e1, e2, e3⟩ := h3 j hj
        refine ⟨p, q', ?_, e2, e3⟩
        rw [List.getElem?_set_ne (by
          intro he
          have : i = j := by omega
          exact hi (this ▸ hj))] at e1
        exact e1
    · intro j hj
      rw [h4 j fun k hk => hj k (List.mem_cons_of_mem _ hk),
        List.getElem?_set_ne fun he => hj i List.mem_cons_self he.symm]

/-- A loop that returns has run every iteration. -/
theorem parFor_returns {off : ℕ} {f : ℕ → Pt d → Except Err (Pt d)} (ord : List ℕ) (P P' : List (Pt d)) (hnd : ord.Nodup)
    (h : parFor off f ord P = .ok P') :
    P'.length = P.length ∧ (∀ i ∈ ord, ∃ p q, P[off + i]? = some p ∧ f i p = .ok q ∧ P'[off + i]? = some q) ∧
      (∀ j, (∀ i ∈ ord, j ≠ off + i) → P'[j]? = P[j]?) := by
  induction ord generalizing P with
  | nil =>
    cases h
    exact ⟨rfl, by simp, fun _ _ => rfl⟩
  | cons i ord ih =>
    obtain ⟨hi, hnd'⟩ := List.nodup_cons.1 hnd
    simp only [parFor, loopStep] at h
    rcases hs : P[off + i]? with _ | p
    · rw [hs] at h
      simp [Except.bind] at h
    · rw [hs] at h
      rcases hq : f i p with e | q
      · simp [hq, Except.map, Except.bind] at h
      · simp only [hq, Except.map, Except.bind] at h
        obtain ⟨h2, h3, h4⟩ := ih (P.set (off + i) q) hnd' h
        have hl : off + i < P.length := (List.getElem?_eq_some_iff.1 hs).1
        refine ⟨h2.trans List.length_set, ?_, ?_⟩
        · intro j hj
          rcases List.mem_cons.1 hj with rfl | hj
          · refine ⟨_, q, hs, hq, ?_⟩
            rw [h4 _ (fun k hk he => hi (by
              have : j = k := by omega
              rw [this]; exact hk)), List.getElem?_set_self hl]
          · obtain ⟨p', q', e1, e2, e3⟩ := h3 j hj
            refine ⟨p', q', ?_, e2, e3⟩
            rw [List.getElem?_set_ne (by
              intro he
              have : i = j := by omega
              exact hi (this ▸ hj))] at e1
            exact e1
        · intro j hj
          rw [h4 j fun k hk => hj k (List.mem_cons_of_mem _ hk),
            List.getElem?_set_ne fun he => hj i List.mem_cons_self he.symm]

theorem parFor_throws {off : ℕ} {f : ℕ → Pt d → Except Err (Pt d)} {ord : List ℕ} {P : List (Pt d)}
    (hne : ord ≠ []) (hlt : ∀ i ∈ ord, off + i < P.length) (hf : ∀ i ∈ ord, ∀ p, f i p = .error .throws) :
    parFor off f ord P = .error .throws := by
  cases ord with
  | nil => exact absurd rfl hne
  | cons i ord =>
    have hs := List.getElem?_eq_getElem (hlt i List.mem_cons_self)
    simp only [parFor, loopStep, hs, hf i List.mem_cons_self, Except.map, Except.bind]

/-- A loop over more elements than there are writes outside the sequence. -/
theorem parFor_ub {off : ℕ} {f : ℕ → Pt d → Except Err (Pt d)} (ord : List ℕ) (P : List (Pt d))
    (hex : ∃ i ∈ ord, P.length ≤ off + i) (hf : ∀ i ∈ ord, ∀ p, ∃ q, f i p = .ok q) : parFor off f ord P = .error .ub := by
  induction ord generalizing P with
  | nil => obtain ⟨_, h, _⟩ := hex; cases h
  | cons i ord ih =>
    simp only [parFor, loopStep]
    rcases hs : P[off + i]? with _ | p
    · rfl
    · obtain ⟨q, hq⟩ := hf i List.mem_cons_self p
      simp only [hq, Except.map, Except.bind]
      refine ih _ ?_ fun j hj => hf j (List.mem_cons_of_mem _ hj)
      obtain ⟨j, hj, hl⟩ := hex
      have := (List.getElem?_eq_some_iff.1 hs).1
      rcases List.mem_cons.1 hj with rfl | hj
      · omega
      · exact ⟨j, hj, by rw [List.length_set]; exact hl⟩

/-! ### Numbers -/

/-- The conversion keeps the order and does not make everything zero; hashes are 64-bit numbers. -/
structure Rng.OK (g : Rng) : Prop where
  hash : ∀ i, g.hash i < 2 ^ 64
  zero : g.conv 0 = 0
  mono : Monotone g.conv
  pos : 0 < g.conv (2 ^ 64 - 1)

theorem randFloat_mem {g : Rng} (hg : g.OK) (i : ℕ) : 0 ≤ randFloat g i ∧ randFloat g i ≤ 1 := by
  have h0 : 0 ≤ g.conv (g.hash i) := by
    rw [← hg.zero]
    exact hg.mono (Nat.zero_le _)
  have h1 : g.conv (g.hash i) ≤ g.conv (2 ^ 64 - 1) := hg.mono (by have := hg.hash i; omega)
  exact ⟨div_nonneg h0 hg.pos.le, (div_le_one hg.pos).2 h1⟩

theorem randNd_mem {g : Rng} (hg : g.OK) (i : ℕ) (j : Fin d) : |randNd g d i j| ≤ 1 := by
  obtain ⟨h0, h1⟩ := randFloat_mem hg (seed g i j)
  unfold randNd
  rw [abs_le]
  constructor <;> linarith

theorem randRange_ok {g : Rng} (hg : g.OK) (i : ℕ) {lo hi : ℝ} (h : lo < hi) :
    ∃ v, randRange g i lo hi = .ok v ∧ lo ≤ v ∧ v ≤ hi := by
  obtain ⟨h0, h1⟩ := randFloat_mem hg ((i + 1) % 2 ^ 64)
  refine ⟨_, by unfold randRange; rw [if_neg (not_le.2 h)], ?_, ?_⟩
  · nlinarith
  · nlinarith

theorem len_smul (p : Pt d) (s : ℝ) : len (smul p s) = len p * |s| := by
  unfold len smul
  have : (∑ i, p i * s * (p i * s)) = (∑ i, p i * p i) * s ^ 2 := by
    rw [Finset.sum_mul]
    exact Finset.sum_congr rfl fun i _ => by ring
  rw [this, Real.sqrt_mul (Finset.sum_nonneg fun i _ => mul_self_nonneg _), Real.sqrt_sq_eq_abs]

theorem len_nonneg (p : Pt d) : 0 ≤ len p := Real.sqrt_nonneg _

theorem len_unit (p : Pt d) (h : len p ≠ 0) : len (fun j => p j / len p) = 1 := by
  have : (fun j => p j / len p) = smul p (1 / len p) := by
    funext j
    unfold smul
    ring
  rw [this, len_smul, abs_of_nonneg (by have := len_nonneg p; positivity)]
  field_simp

theorem inSphereLoop_spec {g : Rng} {i : ℕ} (fuel j : ℕ) (p : Pt d) (h : inSphereLoop g d i fuel j = .ok p) :
    len p ≤ 1 ∧ ∃ k, p = randNd g d k := by
  induction fuel generalizing j with
  | zero => simp [inSphereLoop] at h
  | succ fuel ih =>
    unfold inSphereLoop at h
    split_ifs at h with hc
    · exact ih _ h
    · cases h
      exact ⟨not_lt.1 hc, _, rfl⟩

theorem inSphereLoop_returns {g : Rng} {i : ℕ} (fuel j k : ℕ) (hk : j ≤ k) (hk' : k < j + fuel)
    (h : len (randNd g d ((g.hash k + i) % 2 ^ 64)) ≤ 1) : ∃ p, inSphereLoop g d i fuel j = .ok p := by
  induction fuel generalizing j with
  | zero => omega
  | succ fuel ih =>
    unfold inSphereLoop
    split_ifs with hc
    · have : j ≠ k := by
        rintro rfl
        exact absurd h (not_le.2 hc)
      exact ih (j + 1) (by omega) (by omega)
    · exact ⟨_, rfl⟩

theorem randOn_spec {g : Rng} {fuel i : ℕ} {s : ℝ} {p : Pt d} (h : randOnUnitSphere g fuel d i s = .ok p) : len p = |s| := by
  unfold randOnUnitSphere at h
  rcases hv : randInUnitSphere g fuel d i with e | v
  · simp [hv, Except.bind] at h
  · simp only [hv, Except.bind] at h
    split_ifs at h with hz
    cases h
    rw [len_smul, len_unit v hz, one_mul]

theorem randOn_returns {g : Rng} (hnz : ∀ m, 2 * g.conv m ≠ g.conv (2 ^ 64 - 1)) (hp : g.conv (2 ^ 64 - 1) ≠ 0) (hd : 1 ≤ d)
    {fuel i k : ℕ} (s : ℝ) (hk : k < fuel) (h : len (randNd g d ((g.hash k + i) % 2 ^ 64)) ≤ 1) :
    ∃ p, randOnUnitSphere g fuel d i s = .ok p := by
  obtain ⟨v, hv⟩ := inSphereLoop_returns (g := g) (d := d) (i := i) fuel 0 k (Nat.zero_le _) (by omega) h
  obtain ⟨_, m, hm⟩ := inSphereLoop_spec fuel 0 v hv
  have hv0 : len v ≠ 0 := by
    intro hz
    have h1 : ∑ i, v i * v i = 0 := (Real.sqrt_eq_zero (Finset.sum_nonneg fun i _ => mul_self_nonneg _)).1 hz
    have h2 := (Finset.sum_eq_zero_iff_of_nonneg fun i _ => mul_self_nonneg (v i)).1 h1 ⟨0, hd⟩ (Finset.mem_univ _)
    have h3 : v ⟨0, hd⟩ = 0 := mul_self_eq_zero.1 h2
    rw [hm] at h3
    unfold randNd randFloat at h3
    apply hnz (g.hash (seed g m 0))
    have h4 : 2 * (g.conv (g.hash (seed g m 0)) / g.conv (2 ^ 64 - 1)) - 1 = 0 := h3
    have h5 : 2 * (g.conv (g.hash (seed g m 0)) / g.conv (2 ^ 64 - 1)) = 1 := by linarith
    rw [← mul_div_assoc, div_eq_one_iff_eq hp] at h5
    exact h5
  refine ⟨smul (fun j => v j / len v) s, ?_⟩
  unfold randOnUnitSphere randInUnitSphere
  rw [hv]
  simp only [Except.bind]
  rw [if_neg hv0]

/-! ### Faces of the cube -/

theorem faces_ok {g : Rng} (hg : g.OK) {σ : Sched} (hσ : ∀ k m, (σ k m).Perm (List.range m)) {n m : ℕ}
    (fs : List (ℕ × ℝ × ℝ)) (hne : fs ≠ []) (hfs : ∀ f ∈ fs, f.2.1 < f.2.2) (k off : ℕ) (P : List (Pt d)) (hP : P.length = n)
    (hn : off + (fs.length - 1) * m ≤ n) :
    ∃ P', faces g σ n m fs k off P = .ok P' ∧ P'.length = n ∧ (∀ j, j < off → P'[j]? = P[j]?) ∧
      ∀ r c lo hi, fs[r]? = some (c, lo, hi) → ∀ i, off + r * m ≤ i → i < n → (i < off + (r + 1) * m ∨ r + 1 = fs.length) →
        ∃ p v, P[i]? = some p ∧ P'[i]? = some (setCoord p c v) ∧ lo ≤ v ∧ v ≤ hi := by
  have one : ∀ (c : ℕ) (lo hi : ℝ) (k off cnt : ℕ) (P : List (Pt d)), lo < hi → off + cnt ≤ P.length →
      ∃ P', parFor off (fun i p => (randRange g (i + off) lo hi).map fun v => setCoord p c v) (σ k cnt) P = .ok P' ∧
        P'.length = P.length ∧ (∀ j, j < off ∨ off + cnt ≤ j → P'[j]? = P[j]?) ∧
        ∀ i, off ≤ i → i < off + cnt → ∃ p v, P[i]? = some p ∧ P'[i]? = some (setCoord p c v) ∧ lo ≤ v ∧ v ≤ hi := by
    intro c lo hi k off cnt P hlt hlen
    have hmem : ∀ i, i ∈ σ k cnt ↔ i < cnt := fun i => (hσ k cnt).mem_iff.trans List.mem_range
    obtain ⟨P', h1, h2, h3, h4⟩ := parFor_ok (off := off)
      (f := fun i p => (randRange g (i + off) lo hi).map fun v => setCoord p c v) (σ k cnt) P
      ((hσ k cnt).nodup_iff.2 List.nodup_range) (fun i hi => by have := (hmem i).1 hi; omega) (fun i _ p => by
        obtain ⟨v, hv, _⟩ := randRange_ok hg (i + off) hlt
        exact ⟨_, by rw [hv]; rfl⟩)
    refine ⟨P', h1, h2, fun j hj => h4 j fun i hi => by have := (hmem i).1 hi; omega, ?_⟩
    intro i h5 h6
    obtain ⟨p, q, e1, e2, e3⟩ := h3 (i - off) ((hmem _).2 (by omega))
    obtain ⟨v, hv, b1, b2⟩ := randRange_ok hg (i - off + off) hlt
    rw [hv] at e2
    cases e2
    rw [show off + (i - off) = i by omega] at e1 e3
    exact ⟨p, v, e1, e3, b1, b2⟩
  induction fs generalizing k off P with
  | nil => exact absurd rfl hne
  | cons f fs ih =>
    obtain ⟨c, lo, hi⟩ := f
    have hlt : lo < hi := hfs _ List.mem_cons_self
    cases fs with
    | nil =>
      obtain ⟨P', h1, h2, h3, h4⟩ := one c lo hi k off (n - off) P hlt (by simp at hn; omega)
      refine ⟨P', by unfold faces; exact h1, h2.trans hP, fun j hj => h3 j (.inl hj), ?_⟩
      intro r c' lo' hi' hr i hi1 hi2 _
      cases r with
      | zero =>
        simp only [List.getElem?_cons_zero, Option.some.injEq, Prod.mk.injEq] at hr
        obtain ⟨rfl, rfl, rfl⟩ := hr
        exact h4 i (by omega) (by omega)
      | succ r => simp at hr
    | cons f2 fs =>
      have hmul : (fs.length + 1) * m = fs.length * m + m := by ring
      have hn' : off + (fs.length + 1) * m ≤ n := by simpa using hn
      obtain ⟨P1, h1, h2, h3, h4⟩ := one c lo hi k off m P hlt (by rw [hP]; omega)
      obtain ⟨P', g1, g2, g3, g4⟩ := ih (by simp) (fun f hf => hfs f (List.mem_cons_of_mem _ hf)) (k + 1) (off + m) P1
        (h2.trans hP) (by simp; omega)
      refine ⟨P', ?_, g2, ?_, ?_⟩
      · unfold faces
        rw [h1]
        exact g1
      · intro j hj
        rw [g3 j (by omega), h3 j (.inl hj)]
      · intro r c' lo' hi' hr i hi1 hi2 hi3
        cases r with
        | zero =>
          simp only [List.getElem?_cons_zero, Option.some.injEq, Prod.mk.injEq] at hr
          obtain ⟨rfl, rfl, rfl⟩ := hr
          have hi4 : i < off + m := by
            rcases hi3 with h | h
            · omega
            · simp at h
          rw [g3 i hi4]
          exact h4 i (by omega) hi4
        | succ r =>
          rw [List.getElem?_cons_succ] at hr
          have e1 : (r + 1) * m = r * m + m := by ring
          have e2 : (r + 1 + 1) * m = (r + 1) * m + m := by ring
          obtain ⟨p, v, q1, q2⟩ := g4 r c' lo' hi' hr i (by omega) hi2 (by
            rcases hi3 with h | h
            · left; omega
            · right
              simpa using h)
          exact ⟨p, v, by rw [← q1, h3 i (.inr (by omega))], q2⟩

theorem faces_throws {g : Rng} {σ : Sched} (hσ : ∀ k m, (σ k m).Perm (List.range m)) {n m : ℕ}
    (fs : List (ℕ × ℝ × ℝ)) (hne : fs ≠ []) (hfs : ∀ f ∈ fs, f.2.2 ≤ f.2.1) (k off : ℕ) (P : List (Pt d)) (hP : P.length = n)
    (hn : off + (fs.length - 1) * m ≤ n) (hlast : off < n) : faces g σ n m fs k off P = .error .throws := by
  have one : ∀ (c : ℕ) (lo hi : ℝ) (k off cnt : ℕ) (P : List (Pt d)), hi ≤ lo → off + cnt ≤ P.length → 0 < cnt →
      parFor off (fun i p => (randRange g (i + off) lo hi).map fun v => setCoord p c v) (σ k cnt) P = .error .throws := by
    intro c lo hi k off cnt P hlt hlen h0
    have hmem : ∀ i, i ∈ σ k cnt ↔ i < cnt := fun i => (hσ k cnt).mem_iff.trans List.mem_range
    refine parFor_throws (fun he => ?_) (fun i hi => by have := (hmem i).1 hi; omega) fun i _ p => ?_
    · have := (hmem 0).2 h0
      rw [he] at this
      cases this
    · unfold randRange
      rw [if_pos hlt]
      rfl
  induction fs generalizing k off P with
  | nil => exact absurd rfl hne
  | cons f fs ih =>
    obtain ⟨c, lo, hi⟩ := f
    have hlt : hi ≤ lo := hfs _ List.mem_cons_self
    cases fs with
    | nil =>
      unfold faces
      exact one c lo hi k off (n - off) P hlt (by omega) (by omega)
    | cons f2 fs =>
      have hmul : (fs.length + 1) * m = fs.length * m + m := by ring
      have hn' : off + (fs.length + 1) * m ≤ n := by simpa using hn
      unfold faces
      by_cases hm : m = 0
      · subst hm
        have : σ k 0 = [] := by
          have := (hσ k 0).length_eq
          simpa using this
        rw [this]
        exact ih (by simp) (fun f hf => hfs f (List.mem_cons_of_mem _ hf)) (k + 1) (off + 0) P hP (by simp; omega) (by omega)
      · rw [one c lo hi k off m P hlt (by omega) (by omega)]
        rfl

end Verif.Dataset
