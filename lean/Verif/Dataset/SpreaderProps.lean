import Verif.Dataset.SpreaderModel
import Verif.Dataset.UniformProps

set_option linter.unusedSectionVars false
set_option linter.unusedVariables false

/-! Property C73: the seed spreader generators. -/

namespace Verif.Dataset

variable {d : ℕ} {c : SprCfg} {rnd : ℕ → ℝ} {fuel : ℕ}

/-! ### Specification -/

/-- Squared distance. -/
def distSq (p q : Pt d) : ℝ := ∑ i, (p i - q i) ^ 2

/-- The box of the generators. -/
def InBox (p : Pt d) : Prop := ∀ i, 0 ≤ p i ∧ p i ≤ 100000

/-- The clustered points of a spreader: it stands at `x` and has put `cnt` points there, `g` points altogether. Every point is put within
the current radius of the spreader. Before a point is put, the spreader may jump to any place in the box; if it does not, it moves
by exactly the current shift when `cReset` points have been put at its place, and stays otherwise. -/
inductive Walk (cReset : ℕ) (rad sh : ℕ → ℝ) : ℕ → ℕ → Pt d → List (Pt d) → Prop
  | nil {g cnt : ℕ} {x : Pt d} : Walk cReset rad sh g cnt x []
  | stay {g cnt : ℕ} {x p : Pt d} {ps : List (Pt d)} : cnt < cReset → distSq p x ≤ rad g ^ 2 →
      Walk cReset rad sh (g + 1) (cnt + 1) x ps → Walk cReset rad sh g cnt x (p :: ps)
  | move {g cnt : ℕ} {x x' p : Pt d} {ps : List (Pt d)} : cReset ≤ cnt → distSq x' x = sh g ^ 2 → distSq p x' ≤ rad g ^ 2 →
      Walk cReset rad sh (g + 1) 1 x' ps → Walk cReset rad sh g cnt x (p :: ps)
  | jump {g cnt : ℕ} {x x' p : Pt d} {ps : List (Pt d)} : InBox x' → distSq p x' ≤ rad g ^ 2 →
      Walk cReset rad sh (g + 1) 1 x' ps → Walk cReset rad sh g cnt x (p :: ps)

/-! ### Lemmas -/

theorem distSq_nonneg (p q : Pt d) : 0 ≤ distSq p q := Finset.sum_nonneg fun i _ => sq_nonneg _

theorem len_le_iff (p : Pt d) {r : ℝ} (hr : 0 ≤ r) : len p ≤ r ↔ normSq p ≤ r ^ 2 := by
  rw [← len_sq]
  exact (pow_le_pow_iff_left₀ (len_nonneg p) hr (by norm_num)).symm

theorem randomVec_box (hrnd : ∀ k, 0 ≤ rnd k ∧ rnd k ≤ 1) (k : ℕ) : InBox (randomVec rnd d k 0 100000) := by
  intro i
  obtain ⟨h0, h1⟩ := hrnd (k + i.val)
  unfold randomVec randomDouble
  constructor <;> linarith

theorem drawLoop_spec {x : Pt d} {r : ℝ} (hr : 0 ≤ r) (fuel k : ℕ) (p : Pt d × ℕ) (h : drawLoop rnd x r fuel k = .ok p) :
    distSq p.1 x ≤ r ^ 2 := by
  induction fuel generalizing k with
  | zero => simp [drawLoop] at h
  | succ fuel ih =>
    unfold drawLoop at h
    split_ifs at h with hc
    · exact ih _ h
    · cases h
      have := (len_le_iff _ hr).1 (not_lt.1 hc)
      unfold normSq at this
      unfold distSq
      refine le_trans (le_of_eq (Finset.sum_congr rfl fun i _ => ?_)) this
      ring

theorem next_spec (hrnd : ∀ k, 0 ≤ rnd k ∧ rnd k ≤ 1) (hrad : ∀ g, 0 ≤ c.rad g) (hc : 0 < c.cReset) {s : Spreader d}
    {q : Pt d × Spreader d} (h : next c rnd fuel s = .ok q) :
    q.2.generated = s.generated + 1 ∧ distSq q.1 q.2.x ≤ c.rad s.generated ^ 2 ∧
      ((s.counter < c.cReset ∧ q.2.x = s.x ∧ q.2.counter = s.counter + 1) ∨
        (c.cReset ≤ s.counter ∧ distSq q.2.x s.x = c.shift s.generated ^ 2 ∧ q.2.counter = 1) ∨
        (InBox q.2.x ∧ q.2.counter = 1)) := by
  unfold next at h
  rcases h1 : mayShift c rnd (mayRestart c rnd s) with e | s1
  · simp [h1, Except.bind] at h
  · simp only [h1, Except.bind] at h
    rcases h2 : drawLoop rnd s1.x (c.rad s1.generated) fuel s1.k with e | p
    · simp [h2, Except.map] at h
    · simp only [h2, Except.map, Except.ok.injEq] at h
      subst h
      have hnear := drawLoop_spec (hrad _) _ _ p h2
      have hmv : s1.generated = s.generated ∧ ((s.counter < c.cReset ∧ s1.x = s.x ∧ s1.counter = s.counter) ∨
          (c.cReset ≤ s.counter ∧ distSq s1.x s.x = c.shift s.generated ^ 2 ∧ s1.counter = 0) ∨
          (InBox s1.x ∧ s1.counter = 0)) := by
        unfold mayRestart at h1
        split_ifs at h1 with hr
        · unfold mayShift at h1
          rw [if_neg (by show ¬c.cReset ≤ 0; omega)] at h1
          cases h1
          exact ⟨rfl, .inr (.inr ⟨randomVec_box hrnd _, rfl⟩)⟩
        · unfold mayShift at h1
          split_ifs at h1 with hs
          · unfold shift at h1
            split_ifs at h1 with hz
            cases h1
            refine ⟨rfl, .inr (.inl ⟨hs, ?_, rfl⟩)⟩
            have hl := len_sq (randomVec rnd d (s.k + 1) (-1) 1 : Pt d)
            simp only at hz ⊢
            generalize hv : (randomVec rnd d (s.k + 1) (-1) 1 : Pt d) = v at *
            unfold distSq
            have : (∑ i, (s.x i + c.shift s.generated * v i / len v - s.x i) ^ 2) =
                (c.shift s.generated / len v) ^ 2 * ∑ i, v i ^ 2 := by
              rw [Finset.mul_sum]
              exact Finset.sum_congr rfl fun i _ => by ring
            rw [this]
            show _ * normSq v = _
            rw [← hl]
            field_simp
          · cases h1
            exact ⟨rfl, .inl ⟨not_le.1 hs, rfl, rfl⟩⟩
      obtain ⟨hg, hm⟩ := hmv
      rw [hg] at hnear
      refine ⟨by simp only [hg], hnear, ?_⟩
      simp only
      rcases hm with ⟨a, b, e⟩ | ⟨a, b, e⟩ | ⟨a, e⟩
      · exact .inl ⟨a, b, by rw [e]⟩
      · exact .inr (.inl ⟨a, b, by rw [e]⟩)
      · exact .inr (.inr ⟨a, by rw [e]⟩)

theorem clusterLoop_spec (hrnd : ∀ k, 0 ≤ rnd k ∧ rnd k ≤ 1) (hrad : ∀ g, 0 ≤ c.rad g) (hc : 0 < c.cReset) {bound : ℝ} (left p : ℕ)
    (s : Spreader d) (r : List (Pt d) × Spreader d) (h : clusterLoop c rnd fuel bound left p s = .ok r) :
    r.1.length ≤ left ∧ r.1.length = ⌈bound⌉₊ - p ∧ Walk c.cReset c.rad c.shift s.generated s.counter s.x r.1 := by
  induction left generalizing p s r with
  | zero =>
    unfold clusterLoop at h
    split_ifs at h with hb
    cases h
    exact ⟨le_rfl, by have := Nat.ceil_le.2 (not_lt.1 hb); simp; omega, .nil⟩
  | succ left ih =>
    unfold clusterLoop at h
    split_ifs at h with hb
    · rcases h1 : next c rnd fuel s with e | q
      · simp [h1, Except.bind] at h
      · simp only [h1, Except.bind] at h
        rcases h2 : clusterLoop c rnd fuel bound left (p + 1) q.2 with e | r'
        · simp [h2, Except.map] at h
        · simp only [h2, Except.map, Except.ok.injEq] at h
          subst h
          obtain ⟨i1, i2, i3⟩ := ih _ _ _ h2
          obtain ⟨n1, n2, n3⟩ := next_spec hrnd hrad hc h1
          have hlt := Nat.lt_ceil.2 hb
          rw [n1] at i3
          refine ⟨by simp; omega, by simp; omega, ?_⟩
          rcases n3 with ⟨a, b, e⟩ | ⟨a, b, e⟩ | ⟨a, e⟩
          · rw [b, e] at i3
            rw [b] at n2
            exact .stay a n2 i3
          · rw [e] at i3
            exact .move a b n2 i3
          · rw [e] at i3
            exact .jump a n2 i3
    · cases h
      exact ⟨by simp, by have := Nat.ceil_le.2 (not_lt.1 hb); simp; omega, .nil⟩

theorem noiseLoop_spec (hrnd : ∀ k, 0 ≤ rnd k ∧ rnd k ≤ 1) (m k : ℕ) :
    (noiseLoop rnd m k : List (Pt d)).length = m ∧ ∀ p ∈ (noiseLoop rnd m k : List (Pt d)), InBox p := by
  induction m generalizing k with
  | zero => exact ⟨rfl, by simp [noiseLoop]⟩
  | succ m ih =>
    obtain ⟨h1, h2⟩ := ih (k + d)
    refine ⟨by simp [noiseLoop, h1], ?_⟩
    intro p hp
    rcases List.mem_cons.1 hp with rfl | hp
    · exact randomVec_box hrnd _
    · exact h2 p hp

/-- What both generators return. -/
theorem generate_spec (hrnd : ∀ k, 0 ≤ rnd k ∧ rnd k ≤ 1) (hrad : ∀ g, 0 ≤ c.rad g) (hc : 0 < c.cReset) {n : ℕ} {rho : ℝ} {P : List (Pt d)}
    (h : generate c rnd fuel d n rho = .ok P) :
    P.length = n ∧ ⌈(1 - rho) * n⌉₊ ≤ n ∧
      (∃ x, InBox x ∧ Walk c.cReset c.rad c.shift 0 0 x (P.take ⌈(1 - rho) * n⌉₊)) ∧ ∀ p ∈ P.drop ⌈(1 - rho) * n⌉₊, InBox p := by
  unfold generate at h
  rcases h1 : clusterLoop c rnd fuel ((1 - rho) * n) n 0 (newSpreader rnd d) with e | r
  · simp [h1, Except.map] at h
  · simp only [h1, Except.map, Except.ok.injEq] at h
    obtain ⟨i1, i2, i3⟩ := clusterLoop_spec hrnd hrad hc n 0 _ r h1
    obtain ⟨j1, j2⟩ := noiseLoop_spec (d := d) hrnd (n - r.1.length) r.2.k
    rw [Nat.sub_zero] at i2
    subst h
    rw [← i2]
    refine ⟨by rw [List.length_append, j1]; omega, i1, ⟨_, randomVec_box hrnd 0, ?_⟩, ?_⟩
    · rw [List.take_left]
      exact i3
    · rw [List.drop_left]
      exact j2

/-! ### Theorems -/

/-- C73, `simdenGenerator`: whatever is returned has `n` points; the first `⌈(1 - rhoNoise) n⌉` are those of a spreader that starts in the box,
with radius 100, which moves by `50 d` after every 100 points at a place; the others lie in the box. -/
theorem c73_simden (hrnd : ∀ k, 0 ≤ rnd k ∧ rnd k ≤ 1) {n : ℕ} {rho : ℝ} {P : List (Pt d)} (h : simden rnd fuel d n rho = .ok P) :
    P.length = n ∧ ⌈(1 - rho) * n⌉₊ ≤ n ∧
      (∃ x, InBox x ∧ Walk 100 (fun _ => 100) (fun _ => 50 * d) 0 0 x (P.take ⌈(1 - rho) * n⌉₊)) ∧
      ∀ p ∈ P.drop ⌈(1 - rho) * n⌉₊, InBox p :=
  generate_spec hrnd (fun _ => by norm_num) (by norm_num) h

/-- C73, `vardenGenerator`: the same, with a radius of `100, 200, ..., 1000, 100, ...` for the successive points and a shift of
`d / 2` times the radius. -/
theorem c73_varden (hrnd : ∀ k, 0 ≤ rnd k ∧ rnd k ≤ 1) {n : ℕ} {rho : ℝ} {P : List (Pt d)} (h : varden rnd fuel d n rho = .ok P) :
    P.length = n ∧ ⌈(1 - rho) * n⌉₊ ≤ n ∧
      (∃ x, InBox x ∧ Walk 100 (fun g => 100 * ((g % 10 : ℕ) + 1)) (fun g => 100 * ((g % 10 : ℕ) + 1) * d / 2) 0 0 x
        (P.take ⌈(1 - rho) * n⌉₊)) ∧
      ∀ p ∈ P.drop ⌈(1 - rho) * n⌉₊, InBox p :=
  generate_spec hrnd (fun _ => by positivity) (by norm_num) h

/-! #### Termination -/

theorem drawLoop_returns {x : Pt d} {r : ℝ} (hr : 0 ≤ r) (fuel k j : ℕ) (hj : j < fuel)
    (h : ∑ i : Fin d, (2 * rnd (k + j * d + i.val) - 1) ^ 2 ≤ 1) : ∃ p, drawLoop rnd x r fuel k = .ok p := by
  induction fuel generalizing k j with
  | zero => omega
  | succ fuel ih =>
    unfold drawLoop
    split_ifs with hc
    · cases j with
      | zero =>
        exfalso
        apply absurd hc
        rw [not_lt, len_le_iff _ hr]
        unfold normSq randomVec randomDouble
        have : (∑ i : Fin d, (x i - (x i + (-r + rnd (k + i.val) * (r - -r)))) ^ 2) =
            r ^ 2 * ∑ i : Fin d, (2 * rnd (k + 0 * d + i.val) - 1) ^ 2 := by
          rw [Finset.mul_sum]
          refine Finset.sum_congr rfl fun i _ => ?_
          rw [show k + 0 * d + i.val = k + i.val by ring]
          ring
        rw [this]
        exact mul_le_of_le_one_right (sq_nonneg r) h
      | succ j =>
        refine ih (k + d) j (by omega) ?_
        have : ∀ i : Fin d, k + d + j * d + i.val = k + (j + 1) * d + i.val := fun i => by ring
        simpa only [this] using h
    · exact ⟨_, rfl⟩

theorem next_returns (hrad : ∀ g, 0 ≤ c.rad g)
    (hdraw : ∀ k, ∃ j < fuel, ∑ i : Fin d, (2 * rnd (k + j * d + i.val) - 1) ^ 2 ≤ 1) (hdir : ∀ k, ∃ i : Fin d, rnd (k + i.val) ≠ 1 / 2)
    (s : Spreader d) : ∃ q, next c rnd fuel s = .ok q := by
  have h1 : ∃ s1, mayShift c rnd (mayRestart c rnd s) = .ok s1 := by
    unfold mayShift
    split_ifs
    · unfold shift
      rw [if_neg]
      · exact ⟨_, rfl⟩
      · intro hz
        obtain ⟨i, hi⟩ := hdir (mayRestart c rnd s).k
        have h1 := len_sq (randomVec rnd d (mayRestart c rnd s).k (-1) 1 : Pt d)
        rw [hz] at h1
        unfold normSq at h1
        have h2 := (Finset.sum_eq_zero_iff_of_nonneg fun i _ => sq_nonneg _).1 (h1.symm.trans (by norm_num)) i (Finset.mem_univ _)
        have h3 := pow_eq_zero_iff (by norm_num) |>.1 h2
        unfold randomVec randomDouble at h3
        apply hi
        linarith
    · exact ⟨_, rfl⟩
  obtain ⟨s1, h1⟩ := h1
  obtain ⟨j, hj, hs⟩ := hdraw s1.k
  obtain ⟨p, hp⟩ := drawLoop_returns (x := s1.x) (hrad s1.generated) fuel s1.k j hj hs
  unfold next
  rw [h1]
  simp only [Except.bind]
  rw [hp]
  exact ⟨_, rfl⟩

theorem clusterLoop_returns (hnext : ∀ s : Spreader d, ∃ q, next c rnd fuel s = .ok q) {bound : ℝ} (left p : ℕ) (hb : bound ≤ (p + left : ℕ))
    (s : Spreader d) : ∃ r, clusterLoop c rnd fuel bound left p s = .ok r := by
  induction left generalizing p s with
  | zero =>
    rw [Nat.add_zero] at hb
    unfold clusterLoop
    rw [if_neg (not_lt.2 hb)]
    exact ⟨_, rfl⟩
  | succ left ih =>
    unfold clusterLoop
    split_ifs
    · obtain ⟨q, hq⟩ := hnext s
      obtain ⟨r, hr⟩ := ih (p + 1) (by rw [show p + 1 + left = p + (left + 1) by omega]; exact hb) q.2
      rw [hq]
      simp only [Except.bind]
      rw [hr]
      exact ⟨_, rfl⟩
    · exact ⟨_, rfl⟩

/-- C73: both generators return, for a share of noise that is not negative, when the random numbers leave every rejection loop within
`fuel` attempts and never give the direction zero. -/
theorem c73_returns (hdraw : ∀ k, ∃ j < fuel, ∑ i : Fin d, (2 * rnd (k + j * d + i.val) - 1) ^ 2 ≤ 1)
    (hdir : ∀ k, ∃ i : Fin d, rnd (k + i.val) ≠ 1 / 2) {n : ℕ} {rho : ℝ} (h0 : 0 ≤ rho) :
    (∃ P, simden rnd fuel d n rho = .ok P) ∧ ∃ P, varden rnd fuel d n rho = .ok P := by
  have hb : (1 - rho) * n ≤ (0 + n : ℕ) := by
    rw [Nat.zero_add]
    exact mul_le_of_le_one_left (Nat.cast_nonneg n) (by linarith)
  constructor
  · unfold simden generate
    obtain ⟨r, hr⟩ := clusterLoop_returns (c := ⟨100, 10 / (n * (1 - rho)), fun _ => 100, fun _ => 50 * d⟩)
      (fun s => next_returns (fun _ => by norm_num) hdraw hdir s) n 0 hb (newSpreader rnd d)
    rw [hr]
    exact ⟨_, rfl⟩
  · unfold varden generate
    obtain ⟨r, hr⟩ := clusterLoop_returns (c := ⟨100, 10 / (n * (1 - rho)), fun g => 100 * ((g % 10 : ℕ) + 1),
        fun g => 100 * ((g % 10 : ℕ) + 1) * d / 2⟩)
      (fun s => next_returns (fun _ => by positivity) hdraw hdir s) n 0 hb (newSpreader rnd d)
    rw [hr]
    exact ⟨_, rfl⟩

/-! #### How far from the box -/

theorem coord_le {p q : Pt d} {r : ℝ} (hr : 0 ≤ r) (h : distSq p q ≤ r ^ 2) (i : Fin d) : |p i - q i| ≤ r := by
  have h1 : (p i - q i) ^ 2 ≤ distSq p q := Finset.single_le_sum (f := fun i => (p i - q i) ^ 2) (fun i _ => sq_nonneg _) (Finset.mem_univ i)
  exact abs_le_of_sq_le_sq (h1.trans h) hr

theorem walk_near {r sh : ℝ} (hr : 0 ≤ r) (hsh : 0 ≤ sh) {g cnt : ℕ} {x : Pt d} {ps : List (Pt d)}
    (h : Walk 100 (fun _ => r) (fun _ => sh) g cnt x ps) (B : ℝ) (hB : 0 ≤ B) (hx : ∀ i, -B ≤ x i ∧ x i ≤ 100000 + B) :
    ∀ p ∈ ps, ∀ i, -(B + sh * ((cnt + ps.length - 1) / 100 : ℕ) + r) ≤ p i ∧
      p i ≤ 100000 + (B + sh * ((cnt + ps.length - 1) / 100 : ℕ) + r) := by
  induction h generalizing B with
  | nil => simp
  | @stay g cnt x p ps hc hn hw ih =>
    intro q hq i
    have e : cnt + (p :: ps).length - 1 = cnt + 1 + ps.length - 1 := by
      rw [List.length_cons]
      omega
    rw [e]
    rcases List.mem_cons.1 hq with rfl | hq
    · have h1 := abs_le.1 (coord_le hr hn i)
      have h2 := hx i
      have h3 : 0 ≤ sh * ((cnt + 1 + ps.length - 1) / 100 : ℕ) := by positivity
      constructor <;> linarith [h1.1, h1.2, h2.1, h2.2]
    · exact ih B hB hx q hq i
  | @move g cnt x x' p ps hc hm hn hw ih =>
    intro q hq i
    have e : 1 + (1 + ps.length - 1) / 100 ≤ (cnt + (p :: ps).length - 1) / 100 := by
      simp only [List.length_cons]
      omega
    have e' : sh + sh * ((1 + ps.length - 1) / 100 : ℕ) ≤ sh * ((cnt + (p :: ps).length - 1) / 100 : ℕ) := by
      have : ((1 + (1 + ps.length - 1) / 100 : ℕ) : ℝ) ≤ ((cnt + (p :: ps).length - 1) / 100 : ℕ) := by exact_mod_cast e
      rw [Nat.cast_add, Nat.cast_one] at this
      nlinarith
    have hx' : ∀ i, -(B + sh) ≤ x' i ∧ x' i ≤ 100000 + (B + sh) := by
      intro i
      have h1 := abs_le.1 (coord_le hsh hm.le i)
      have h2 := hx i
      constructor <;> linarith [h1.1, h1.2, h2.1, h2.2]
    rcases List.mem_cons.1 hq with rfl | hq
    · have h1 := abs_le.1 (coord_le hr hn i)
      have h2 := hx' i
      have h3 : 0 ≤ sh * ((1 + ps.length - 1) / 100 : ℕ) := by positivity
      constructor <;> linarith [h1.1, h1.2, h2.1, h2.2]
    · have := ih (B + sh) (by linarith) hx' q hq i
      constructor <;> linarith [this.1, this.2]
  | @jump g cnt x x' p ps hb hn hw ih =>
    intro q hq i
    have e : (1 + ps.length - 1) / 100 ≤ (cnt + (p :: ps).length - 1) / 100 := by
      simp only [List.length_cons]
      omega
    have e' : sh * ((1 + ps.length - 1) / 100 : ℕ) ≤ sh * ((cnt + (p :: ps).length - 1) / 100 : ℕ) :=
      mul_le_mul_of_nonneg_left (by exact_mod_cast e) hsh
    have hx' : ∀ i, -0 ≤ x' i ∧ x' i ≤ 100000 + (0 : ℝ) := fun i => by
      have := hb i
      constructor <;> linarith [this.1, this.2]
    rcases List.mem_cons.1 hq with rfl | hq
    · have h1 := abs_le.1 (coord_le hr hn i)
      have h2 := hb i
      have h3 : 0 ≤ sh * ((1 + ps.length - 1) / 100 : ℕ) := by positivity
      constructor <;> linarith [h1.1, h1.2, h2.1, h2.2]
    · have := ih 0 le_rfl hx' q hq i
      constructor <;> linarith [this.1, this.2]

/-- C73: a point of `simdenGenerator` is outside the box by at most the radius and one shift for every 100 points. -/
theorem c73_simden_near_partial (hrnd : ∀ k, 0 ≤ rnd k ∧ rnd k ≤ 1) {n : ℕ} {rho : ℝ} {P : List (Pt d)}
    (h : simden rnd fuel d n rho = .ok P) (p : Pt d) (hp : p ∈ P) (i : Fin d) :
    -(50 * d * ((n - 1) / 100 : ℕ) + 100) ≤ p i ∧ p i ≤ 100000 + (50 * d * ((n - 1) / 100 : ℕ) + 100) := by
  obtain ⟨hl, hm, ⟨x, hx, hw⟩, hb⟩ := c73_simden hrnd h
  have hpos : (0 : ℝ) ≤ 50 * d * ((n - 1) / 100 : ℕ) := by positivity
  rw [← List.take_append_drop ⌈(1 - rho) * n⌉₊ P, List.mem_append] at hp
  rcases hp with hp | hp
  · have := walk_near (by norm_num) (by positivity) hw 0 le_rfl (fun i => by
      have := hx i
      constructor <;> linarith [this.1, this.2]) p hp i
    have e : (0 + (P.take ⌈(1 - rho) * n⌉₊).length - 1) / 100 ≤ (n - 1) / 100 := by
      rw [List.length_take]
      omega
    have e' : (50 * d : ℝ) * ((0 + (P.take ⌈(1 - rho) * n⌉₊).length - 1) / 100 : ℕ) ≤ 50 * d * ((n - 1) / 100 : ℕ) :=
      mul_le_mul_of_nonneg_left (by exact_mod_cast e) (by positivity)
    constructor <;> linarith [this.1, this.2]
  · have := hb p hp i
    constructor <;> linarith [this.1, this.2]

/-! #### Concrete cases -/

/-- The first two random numbers are 1, all others 3/4. -/
noncomputable def rnd1 : ℕ → ℝ := fun k => if k < 2 then 1 else 3 / 4

theorem rnd1_mem (k : ℕ) : 0 ≤ rnd1 k ∧ rnd1 k ≤ 1 := by
  unfold rnd1
  split_ifs <;> norm_num

/-- The hypotheses hold for these random numbers: both generators return (1000 points, one percent noise). -/
example : (∃ P, simden rnd1 2 2 1000 (1 / 100) = .ok P) ∧ ∃ P, varden rnd1 2 2 1000 (1 / 100) = .ok P := by
  refine c73_returns (fun k => ⟨1, by norm_num, ?_⟩) (fun k => ⟨0, ?_⟩) (by norm_num)
  · rw [Fin.sum_univ_two]
    have h : ∀ m, rnd1 (k + 1 * 2 + m) = 3 / 4 := fun m => by
      unfold rnd1
      rw [if_neg (by omega)]
    rw [h, h]
    norm_num
  · unfold rnd1
    split_ifs <;> norm_num

/-- **C73 fails for the box.** A clustered point outside `[0, 100000]^2`. -/
theorem c73_box_false : ∃ P : List (Pt 2), simden rnd1 2 2 20 0 = .ok P ∧ ∃ p ∈ P, ¬InBox p := by
  obtain ⟨⟨P, hP⟩, _⟩ := c73_returns (rnd := rnd1) (fuel := 2) (d := 2) (n := 20) (rho := 0) (fun k => ⟨1, by norm_num, by
    rw [Fin.sum_univ_two]
    have h : ∀ m, rnd1 (k + 1 * 2 + m) = 3 / 4 := fun m => by
      unfold rnd1
      rw [if_neg (by omega)]
    rw [h, h]
    norm_num⟩) (fun k => ⟨0, by
    unfold rnd1
    split_ifs <;> norm_num⟩) le_rfl
  refine ⟨P, hP, ?_⟩
  have h4 : ∀ k, 2 ≤ k → rnd1 k = 3 / 4 := fun k hk => by
    unfold rnd1
    rw [if_neg (by omega)]
  have h1 : ∀ k, k < 2 → rnd1 k = 1 := fun k hk => by
    unfold rnd1
    rw [if_pos hk]
  have hx : (newSpreader rnd1 2).x = fun _ => 100000 := by
    funext i
    show 0 + rnd1 (0 + i.val) * (100000 - 0) = 100000
    rw [h1 _ (by have := i.isLt; omega)]
    norm_num
  have hn : next ⟨100, 10 / ((20 : ℕ) * (1 - 0)), fun _ => 100, fun _ => 50 * (2 : ℕ)⟩ rnd1 2 (newSpreader rnd1 2) =
      .ok (fun _ => 100050, ⟨fun _ => 100000, 1, 1, 5⟩) := by
    have hmr : mayRestart ⟨100, 10 / ((20 : ℕ) * (1 - 0)), fun _ => 100, fun _ => 50 * (2 : ℕ)⟩ rnd1 (newSpreader rnd1 2) =
        (⟨fun _ => 100000, 0, 0, 3⟩ : Spreader 2) := by
      unfold mayRestart
      rw [if_neg]
      · rw [hx]
        rfl
      · show ¬(0 + rnd1 (0 + 2) * (1 - 0) ≤ 10 / ((20 : ℕ) * (1 - 0)))
        rw [h4 _ (by omega)]
        norm_num
    have hv : ∀ i : Fin 2, (randomVec rnd1 2 3 (-100) 100 : Pt 2) i = 50 := by
      intro i
      show -100 + rnd1 (3 + i.val) * (100 - -100) = 50
      rw [h4 _ (by omega)]
      norm_num
    unfold next
    rw [hmr]
    unfold mayShift
    simp only [Except.bind]
    rw [if_neg (by norm_num)]
    simp only
    unfold drawLoop
    rw [if_neg]
    · simp only [Except.map, hv]
      norm_num
    · rw [not_lt, len_le_iff _ (by norm_num)]
      unfold normSq
      rw [Fin.sum_univ_two]
      simp only [hv]
      norm_num
  unfold simden generate clusterLoop at hP
  rw [if_pos (by norm_num), hn] at hP
  simp only [Except.bind] at hP
  generalize clusterLoop (d := 2) _ _ _ _ _ _ _ = r at hP
  rcases r with e | r
  · simp [Except.map] at hP
  · simp only [Except.map, Except.ok.injEq] at hP
    refine ⟨fun _ => 100050, by rw [← hP]; simp, fun hb => ?_⟩
    have := (hb 0).2
    norm_num at this

theorem clusterLoop_overflow {bound : ℝ} (hnext : ∀ s : Spreader d, ∃ q, next c rnd fuel s = .ok q) (left p : ℕ)
    (hb : ((p + left : ℕ) : ℝ) < bound) (s : Spreader d) : clusterLoop c rnd fuel bound left p s = .error .ub := by
  induction left generalizing p s with
  | zero =>
    rw [Nat.add_zero] at hb
    unfold clusterLoop
    rw [if_pos hb]
  | succ left ih =>
    obtain ⟨q, hq⟩ := hnext s
    unfold clusterLoop
    rw [if_pos (lt_of_le_of_lt (by push_cast; linarith [Nat.cast_nonneg (α := ℝ) left]) hb), hq]
    simp only [Except.bind]
    rw [ih (p + 1) (by rw [show p + 1 + left = p + (left + 1) by omega]; exact hb)]
    rfl

/-- **C73 fails for a negative share of noise.** Nothing checks the share; the clustered points are written outside the sequence, for every
positive number of points and all random numbers that leave the rejection loops. -/
theorem c73_negative_false (hdraw : ∀ k, ∃ j < fuel, ∑ i : Fin d, (2 * rnd (k + j * d + i.val) - 1) ^ 2 ≤ 1)
    (hdir : ∀ k, ∃ i : Fin d, rnd (k + i.val) ≠ 1 / 2) {n : ℕ} (hn : 0 < n) {rho : ℝ} (h0 : rho < 0) :
    simden rnd fuel d n rho = .error .ub ∧ varden rnd fuel d n rho = .error .ub := by
  have hb : ((0 + n : ℕ) : ℝ) < (1 - rho) * n := by
    rw [Nat.zero_add]
    have : (0 : ℝ) < n := by exact_mod_cast hn
    nlinarith
  constructor
  · unfold simden generate
    rw [clusterLoop_overflow (fun s => next_returns (fun _ => by norm_num) hdraw hdir s) n 0 hb]
    rfl
  · unfold varden generate
    rw [clusterLoop_overflow (fun s => next_returns (fun _ => by positivity) hdraw hdir s) n 0 hb]
    rfl

end Verif.Dataset
