import Mathlib.Order.Bounds.Basic
import Mathlib.Tactic.FinCases
import Mathlib.Tactic.FieldSimp
import Mathlib.Tactic.Linarith
import Mathlib.Tactic.Positivity
import Mathlib.Algebra.Order.Ring.Rat
import Mathlib.Data.Rat.Floor
import Verif.Morton.Bits

set_option linter.unusedSectionVars false
set_option linter.unusedVariables false

/-!
Property C38: Morton codes are injective and monotone on grid cells and the Morton sort returns the input
ordered by code.
-/

namespace Verif.Morton

/-- **C38** (three coordinates): the code of 16-bit cells has, at digit `3i + j`, digit `i` of coordinate
`j`, and nothing beyond digit 48. -/
theorem c38_code3_bits (x y z : ℕ) (hx : x ≤ 65535) (hy : y ≤ 65535) (hz : z ≤ 65535) :
    ∃ c, zorder3 ![x, y, z] = .ok c ∧ c < 2 ^ 48 ∧
      ∀ i < 16, c.testBit (3 * i) = x.testBit i ∧ c.testBit (3 * i + 1) = y.testBit i ∧
        c.testBit (3 * i + 2) = z.testBit i := by
  refine ⟨_, zorder3_eq x y z (by omega) (by omega) (by omega), ?_, fun i hi => ?_⟩
  · apply Nat.lt_pow_two_of_testBit
    intro i hi
    rw [interleave_bit, decide_eq_false (by omega), Bool.false_and]
  · simp only [interleave_bit]
    rw [decide_eq_true (by omega), decide_eq_true (by omega), decide_eq_true (by omega)]
    rw [if_pos (by omega), if_neg (by omega), if_pos (by omega), if_neg (by omega), if_neg (by omega)]
    refine ⟨?_, ?_, ?_⟩
    · rw [show 3 * i / 3 = i by omega, Bool.true_and]
    · rw [show (3 * i + 1) / 3 = i by omega, Bool.true_and]
    · rw [show (3 * i + 2) / 3 = i by omega, Bool.true_and]

/-- **C38** (two coordinates): as in three dimensions with every third digit 0. -/
theorem c38_code2_bits (x y : ℕ) (hx : x ≤ 65535) (hy : y ≤ 65535) :
    ∃ c, zorder2 ![x, y] = .ok c ∧ c < 2 ^ 48 ∧
      ∀ i < 16, c.testBit (3 * i) = x.testBit i ∧ c.testBit (3 * i + 1) = y.testBit i ∧
        c.testBit (3 * i + 2) = false := by
  obtain ⟨c, h1, h2, h3⟩ := c38_code3_bits x y 0 hx hy (by omega)
  rw [zorder3_eq x y 0 (by omega) (by omega) (by omega)] at h1
  refine ⟨c, by rw [zorder2_eq x y (by omega) (by omega)]; exact h1, h2, fun i hi => ?_⟩
  simpa using h3 i hi

/-- **C38**: a cell coordinate outside 16 bits throws, whichever coordinate it is. -/
theorem c38_range_error (c : Fin 3 → ℕ) : zorder3 c = .error .throws ↔ ∃ i, 65535 < c i := by
  constructor
  · intro h
    by_contra hc
    push Not at hc
    have e : c = ![c 0, c 1, c 2] := by
      funext i
      fin_cases i <;> rfl
    rw [e, zorder3_eq _ _ _ (by have := hc 0; omega) (by have := hc 1; omega)
      (by have := hc 2; omega)] at h
    cases h
  · rintro ⟨i, hi⟩
    have hs : ∀ x, 65535 < x → shift x = .error .throws := fun x hx => by
      unfold shift maxRange
      rw [if_pos hx]
    have hs2 : ∀ x, (∃ y, shift x = .ok y) ∨ shift x = .error .throws := fun x => by
      unfold shift
      split
      · right
        rfl
      · left
        exact ⟨_, rfl⟩
    unfold zorder3
    rcases hs2 (c 0) with ⟨a, ha⟩ | ha
    · rcases hs2 (c 1) with ⟨b, hb⟩ | hb
      · rcases hs2 (c 2) with ⟨d, hd⟩ | hd
        · exfalso
          fin_cases i
          · rw [hs (c 0) hi] at ha
            cases ha
          · rw [hs (c 1) hi] at hb
            cases hb
          · rw [hs (c 2) hi] at hd
            cases hd
        · simp only [ha, hb, hd, Except.bind, Except.map]
      · simp only [ha, hb, Except.bind]
    · simp only [ha, Except.bind]

/-- **C38**: different cells get different codes. -/
theorem c38_injective3 (a b : Fin 3 → ℕ) (ha : ∀ i, a i ≤ 65535) (hb : ∀ i, b i ≤ 65535)
    (h : zorder3 a = zorder3 b) : a = b := by
  have ea : a = ![a 0, a 1, a 2] := by
    funext i
    fin_cases i <;> rfl
  have eb : b = ![b 0, b 1, b 2] := by
    funext i
    fin_cases i <;> rfl
  have a0 := ha 0
  have a1 := ha 1
  have a2 := ha 2
  have b0 := hb 0
  have b1 := hb 1
  have b2 := hb 2
  rw [ea, eb, zorder3_eq _ _ _ (by omega) (by omega) (by omega),
    zorder3_eq _ _ _ (by omega) (by omega) (by omega)] at h
  obtain ⟨h0, h1, h2⟩ := interleave_inj 16 _ _ _ _ _ _ (by omega) (by omega) (by omega) (by omega)
    (by omega) (by omega) (Except.ok.inj h)
  rw [ea, eb, h0, h1, h2]

/-- **C38**: different planar cells get different codes. -/
theorem c38_injective2 (a b : Fin 2 → ℕ) (ha : ∀ i, a i ≤ 65535) (hb : ∀ i, b i ≤ 65535)
    (h : zorder2 a = zorder2 b) : a = b := by
  have ea : a = ![a 0, a 1] := by
    funext i
    fin_cases i <;> rfl
  have eb : b = ![b 0, b 1] := by
    funext i
    fin_cases i <;> rfl
  have a0 := ha 0
  have a1 := ha 1
  have b0 := hb 0
  have b1 := hb 1
  rw [ea, eb, zorder2_eq _ _ (by omega) (by omega), zorder2_eq _ _ (by omega) (by omega)] at h
  obtain ⟨h0, h1, h2⟩ := interleave_inj 16 _ _ _ _ _ _ (by omega) (by omega) (by omega) (by omega)
    (by omega) (by omega) (Except.ok.inj h)
  rw [ea, eb, h0, h1]

/-- **C38**: a cell that is larger or equal in every coordinate gets a larger or equal code. -/
theorem c38_monotone3 (a b : Fin 3 → ℕ) (hab : ∀ i, a i ≤ b i) (hb : ∀ i, b i ≤ 65535) :
    ∃ ca cb, zorder3 a = .ok ca ∧ zorder3 b = .ok cb ∧ ca ≤ cb := by
  have ea : a = ![a 0, a 1, a 2] := by
    funext i
    fin_cases i <;> rfl
  have eb : b = ![b 0, b 1, b 2] := by
    funext i
    fin_cases i <;> rfl
  have a0 := hab 0
  have a1 := hab 1
  have a2 := hab 2
  have b0 := hb 0
  have b1 := hb 1
  have b2 := hb 2
  refine ⟨_, _, by rw [ea]; exact zorder3_eq _ _ _ (by omega) (by omega) (by omega),
    by rw [eb]; exact zorder3_eq _ _ _ (by omega) (by omega) (by omega), ?_⟩
  exact interleave_mono 16 _ _ _ _ _ _ a0 a1 a2 (by omega) (by omega) (by omega)

/-- **C38**: planar version of `c38_monotone3`. -/
theorem c38_monotone2 (a b : Fin 2 → ℕ) (hab : ∀ i, a i ≤ b i) (hb : ∀ i, b i ≤ 65535) :
    ∃ ca cb, zorder2 a = .ok ca ∧ zorder2 b = .ok cb ∧ ca ≤ cb := by
  have ea : a = ![a 0, a 1] := by
    funext i
    fin_cases i <;> rfl
  have eb : b = ![b 0, b 1] := by
    funext i
    fin_cases i <;> rfl
  have a0 := hab 0
  have a1 := hab 1
  have b0 := hb 0
  have b1 := hb 1
  refine ⟨_, _, by rw [ea]; exact zorder2_eq _ _ (by omega) (by omega),
    by rw [eb]; exact zorder2_eq _ _ (by omega) (by omega), ?_⟩
  exact interleave_mono 16 _ _ _ _ _ _ a0 a1 le_rfl (by omega) (by omega) (by omega)

/-- **C38**: blocks of the grid are contiguous in the order of the codes: if two cells agree in all but
their lowest `k` digits, so does every cell whose code lies between. -/
theorem c38_blocks_contiguous (k : ℕ) (hk : k ≤ 16) (a b c : Fin 3 → ℕ) (ha : ∀ i, a i ≤ 65535)
    (hb : ∀ i, b i ≤ 65535) (hc : ∀ i, c i ≤ 65535) (ca cb cc : ℕ) (h1 : zorder3 a = .ok ca)
    (h2 : zorder3 b = .ok cb) (h3 : zorder3 c = .ok cc) (h12 : ca ≤ cb) (h23 : cb ≤ cc)
    (hac : ∀ i, a i / 2 ^ k = c i / 2 ^ k) : ∀ i, b i / 2 ^ k = a i / 2 ^ k := by
  have ev : ∀ v : Fin 3 → ℕ, v = ![v 0, v 1, v 2] := fun v => by
    funext i
    fin_cases i <;> rfl
  have a0 := ha 0
  have a1 := ha 1
  have a2 := ha 2
  have b0 := hb 0
  have b1 := hb 1
  have b2 := hb 2
  have c0 := hc 0
  have c1 := hc 1
  have c2 := hc 2
  rw [ev a, zorder3_eq _ _ _ (by omega) (by omega) (by omega)] at h1
  rw [ev b, zorder3_eq _ _ _ (by omega) (by omega) (by omega)] at h2
  rw [ev c, zorder3_eq _ _ _ (by omega) (by omega) (by omega)] at h3
  have e1 := interleave_div 16 k (a 0) (a 1) (a 2) hk
  have e2 := interleave_div 16 k (b 0) (b 1) (b 2) hk
  have e3 := interleave_div 16 k (c 0) (c 1) (c 2) hk
  rw [Except.ok.inj h1] at e1
  rw [Except.ok.inj h2] at e2
  rw [Except.ok.inj h3, ← hac 0, ← hac 1, ← hac 2, ← e1] at e3
  have h4 : ca / 8 ^ k ≤ cb / 8 ^ k := Nat.div_le_div_right h12
  have h5 : cb / 8 ^ k ≤ cc / 8 ^ k := Nat.div_le_div_right h23
  have h6 : cb / 8 ^ k = ca / 8 ^ k := by omega
  rw [e1, e2] at h6
  have hlt : ∀ v, v ≤ 65535 → v / 2 ^ k < 2 ^ (16 - k) := fun v hv => by
    rw [Nat.div_lt_iff_lt_mul (by positivity), ← pow_add, Nat.sub_add_cancel hk]
    omega
  obtain ⟨h7, h8, h9⟩ := interleave_inj _ _ _ _ _ _ _ (hlt _ b0) (hlt _ b1) (hlt _ b2) (hlt _ a0)
    (hlt _ a1) (hlt _ a2) h6
  intro i
  fin_cases i
  · exact h7
  · exact h8
  · exact h9

variable {K : Type} [Field K] [LinearOrder K] [IsStrictOrderedRing K] [FloorRing K]
variable {α : Type} {d : ℕ}

theorem foldl_min_isLeast (f : α → K) (P : List α) (m : K) :
    IsLeast (insert m {x | ∃ q ∈ P, f q = x}) (P.foldl (fun m q => min m (f q)) m) := by
  induction P generalizing m with
  | nil => simp [IsLeast, lowerBounds]
  | cons p P ih =>
    rw [List.foldl_cons]
    obtain ⟨h1, h2⟩ := ih (min m (f p))
    constructor
    · rcases h1 with h1 | ⟨q, hq, h1⟩
      · rw [h1]
        rcases min_choice m (f p) with h | h
        · left
          exact h
        · right
          exact ⟨p, by simp, h.symm⟩
      · right
        exact ⟨q, by simp [hq], h1⟩
    · rintro x (rfl | ⟨q, hq, rfl⟩)
      · exact le_trans (h2 (Or.inl rfl)) (min_le_left _ _)
      · rcases List.mem_cons.mp hq with rfl | hq
        · exact le_trans (h2 (Or.inl rfl)) (min_le_right _ _)
        · exact h2 (Or.inr ⟨q, hq, rfl⟩)

theorem foldl_max_isGreatest (f : α → K) (P : List α) (m : K) :
    IsGreatest (insert m {x | ∃ q ∈ P, f q = x}) (P.foldl (fun m q => max m (f q)) m) := by
  induction P generalizing m with
  | nil => simp [IsGreatest, upperBounds]
  | cons p P ih =>
    rw [List.foldl_cons]
    obtain ⟨h1, h2⟩ := ih (max m (f p))
    constructor
    · rcases h1 with h1 | ⟨q, hq, h1⟩
      · rw [h1]
        rcases max_choice m (f p) with h | h
        · left
          exact h
        · right
          exact ⟨p, by simp, h.symm⟩
      · right
        exact ⟨q, by simp [hq], h1⟩
    · rintro x (rfl | ⟨q, hq, rfl⟩)
      · exact le_trans (le_max_left _ _) (h2 (Or.inl rfl))
      · rcases List.mem_cons.mp hq with rfl | hq
        · exact le_trans (le_max_right _ _) (h2 (Or.inl rfl))
        · exact h2 (Or.inr ⟨q, hq, rfl⟩)

theorem extMin_eq (pos : α → Fin d → K) (p : α) (P : List α) (hp : p ∈ P) (i : Fin d) (lo : K)
    (hlo : IsLeast {x | ∃ q ∈ P, pos q i = x} lo) : extMin pos p P i = lo := by
  have h := foldl_min_isLeast (fun q => pos q i) P (pos p i)
  rw [Set.insert_eq_of_mem (show pos p i ∈ {x | ∃ q ∈ P, pos q i = x} from ⟨p, hp, rfl⟩)] at h
  exact h.unique hlo

theorem extMax_eq (pos : α → Fin d → K) (p : α) (P : List α) (hp : p ∈ P) (i : Fin d) (hi : K)
    (hhi : IsGreatest {x | ∃ q ∈ P, pos q i = x} hi) : extMax pos p P i = hi := by
  have h := foldl_max_isGreatest (fun q => pos q i) P (pos p i)
  rw [Set.insert_eq_of_mem (show pos p i ∈ {x | ∃ q ∈ P, pos q i = x} from ⟨p, hp, rfl⟩)] at h
  exact h.unique hhi

theorem maxSpan_eq (pos : α → Fin d → K) (p : α) (P : List α) (hp : p ∈ P) (lo hi : Fin d → K) (w : K)
    (hlo : ∀ i, IsLeast {x | ∃ q ∈ P, pos q i = x} (lo i))
    (hhi : ∀ i, IsGreatest {x | ∃ q ∈ P, pos q i = x} (hi i))
    (hw : IsGreatest {x | ∃ i, hi i - lo i = x} w) : maxSpan pos p P = w := by
  have h := foldl_max_isGreatest (fun i => extMax pos p P i - extMin pos p P i) (List.finRange d) 0
  have e : ∀ i, extMax pos p P i - extMin pos p P i = hi i - lo i := fun i => by
    rw [extMax_eq pos p P hp i _ (hhi i), extMin_eq pos p P hp i _ (hlo i)]
  have hw0 : 0 ≤ w := by
    obtain ⟨i, hi'⟩ := hw.1
    obtain ⟨q, hq, h1⟩ := (hlo i).1
    have := (hhi i).2 ⟨q, hq, h1⟩
    rw [← hi']
    linarith
  refine h.unique ⟨?_, ?_⟩
  · right
    obtain ⟨i, hi'⟩ := hw.1
    exact ⟨i, List.mem_finRange i, by rw [← hi']; exact e i⟩
  · rintro x (rfl | ⟨i, _, rfl⟩)
    · exact hw0
    · simp only [e]
      exact hw.2 ⟨i, rfl⟩

/-- Specification: the cell of coordinate `i` of a point in the grid of boxes of side `1.01 w / 65535`
whose lower corner is `lo`. -/
def gridCell (pos : α → Fin d → K) (lo : Fin d → K) (w : K) (q : α) (i : Fin d) : ℤ :=
  ⌊(pos q i - lo i) / (101 / 100 * w / 65535)⌋

theorem cells_eq (pos : α → Fin d → K) (p : α) (P : List α) (hp : p ∈ P) (lo hi : Fin d → K) (w : K)
    (hlo : ∀ i, IsLeast {x | ∃ q ∈ P, pos q i = x} (lo i))
    (hhi : ∀ i, IsGreatest {x | ∃ q ∈ P, pos q i = x} (hi i))
    (hw : IsGreatest {x | ∃ i, hi i - lo i = x} w) (hw0 : 0 < w) (q : α) (hq : q ∈ P) (i : Fin d) :
    ∃ c : ℕ, cells pos p P q i = .ok c ∧ (c : ℤ) = gridCell pos lo w q i ∧ c < 2 ^ 16 := by
  have hbox : boxSize pos p P = 101 / 100 * w / 65535 := by
    unfold boxSize maxRange
    rw [maxSpan_eq pos p P hp lo hi w hlo hhi hw]
    norm_num
  have hb : (0 : K) < 101 / 100 * w / 65535 := by positivity
  have h0 : 0 ≤ pos q i - lo i := sub_nonneg.mpr ((hlo i).2 ⟨q, hq, rfl⟩)
  have h1 : pos q i - lo i ≤ w := by
    have h2 := (hhi i).2 ⟨q, hq, rfl⟩
    have h3 := hw.2 ⟨i, rfl⟩
    linarith
  have hnn : 0 ≤ (pos q i - lo i) / (101 / 100 * w / 65535) := div_nonneg h0 hb.le
  have hlt : (pos q i - lo i) / (101 / 100 * w / 65535) < 65536 := by
    rw [div_lt_iff₀ hb]
    have : 65536 * (101 / 100 * w / 65535) = 65536 * 101 / (100 * 65535) * w := by ring
    rw [this]
    nlinarith
  have hf : 0 ≤ ⌊(pos q i - lo i) / (101 / 100 * w / 65535)⌋ := Int.floor_nonneg.mpr hnn
  have hf2 : ⌊(pos q i - lo i) / (101 / 100 * w / 65535)⌋ < 65536 := by
    rw [Int.floor_lt]
    exact_mod_cast hlt
  refine ⟨⌊(pos q i - lo i) / (101 / 100 * w / 65535)⌋.toNat, ?_, ?_, ?_⟩
  · unfold cells cell
    rw [hbox, extMin_eq pos p P hp i _ (hlo i), if_neg hb.ne', if_neg (not_lt.mpr hnn)]
  · unfold gridCell
    exact Int.toNat_of_nonneg hf
  · omega

theorem mapM_ok {β : Type} (f : α → Except Err β) (g : α → β) (P : List α)
    (h : ∀ q ∈ P, f q = .ok (g q)) : P.mapM f = .ok (P.map g) := by
  induction P with
  | nil => rfl
  | cons p P ih =>
    rw [List.mapM_cons, h p (by simp), ih fun q hq => h q (by simp [hq])]
    rfl

theorem sortByCode_ok (srt : List (ℕ × α) → List (ℕ × α)) (hsrt : SortSpec srt)
    (code : α → Except Err ℕ) (g : α → ℕ) (P : List α) (h : ∀ q ∈ P, code q = .ok (g q)) :
    ∃ out, sortByCode srt code P = .ok out ∧ out.Perm P ∧ out.Pairwise fun a b => g a ≤ g b := by
  unfold sortByCode
  rw [mapM_ok _ (fun q => (g q, q)) P fun q hq => by rw [h q hq]; rfl]
  obtain ⟨h1, h2⟩ := hsrt (P.map fun q => (g q, q))
  refine ⟨_, rfl, ?_, ?_⟩
  · have := h1.map Prod.snd
    rwa [List.map_map, show (Prod.snd ∘ fun q => (g q, q)) = id from rfl, List.map_id] at this
  · rw [List.pairwise_map]
    have hm : ∀ x ∈ srt (P.map fun q => (g q, q)), x.1 = g x.2 := fun x hx => by
      obtain ⟨q, _, rfl⟩ := List.mem_map.mp (h1.mem_iff.mp hx)
      rfl
    refine List.Pairwise.imp_of_mem ?_ h2
    intro a b ha hb hab
    rwa [← hm a ha, ← hm b hb]

/-- **C38** (planar sort): for every input that is not a single repeated location, with lower corner `lo`,
upper corner `hi` and largest extent `w > 0`, the sort returns a permutation of the input in which the
interleaved grid cells never decrease. -/
theorem c38_sort2d (srt : List (ℕ × α) → List (ℕ × α)) (hsrt : SortSpec srt) (pos : α → Fin 2 → K)
    (P : List α) (lo hi : Fin 2 → K) (w : K)
    (hlo : ∀ i, IsLeast {x | ∃ q ∈ P, pos q i = x} (lo i))
    (hhi : ∀ i, IsGreatest {x | ∃ q ∈ P, pos q i = x} (hi i))
    (hw : IsGreatest {x | ∃ i, hi i - lo i = x} w) (hw0 : 0 < w) :
    ∃ out, zorderSort2d srt pos P = .ok out ∧ out.Perm P ∧
      out.Pairwise fun a b =>
        interleave 16 (gridCell pos lo w a 0).toNat (gridCell pos lo w a 1).toNat 0 ≤
          interleave 16 (gridCell pos lo w b 0).toNat (gridCell pos lo w b 1).toNat 0 := by
  cases P with
  | nil =>
    obtain ⟨q, hq, _⟩ := (hlo 0).1
    cases hq
  | cons p P =>
    refine sortByCode_ok srt hsrt _ (fun a => interleave 16 (gridCell pos lo w a 0).toNat
      (gridCell pos lo w a 1).toNat 0) (p :: P) fun q hq => ?_
    obtain ⟨c0, h1, h2, h3⟩ := cells_eq pos p (p :: P) (by simp) lo hi w hlo hhi hw hw0 q hq 0
    obtain ⟨c1, h4, h5, h6⟩ := cells_eq pos p (p :: P) (by simp) lo hi w hlo hhi hw hw0 q hq 1
    unfold code2
    simp only [h1, h4, Except.bind]
    rw [zorder2_eq _ _ h3 h6, ← h2, ← h5, Int.toNat_natCast, Int.toNat_natCast]

/-- **C38** (spatial sort). -/
theorem c38_sort3d (srt : List (ℕ × α) → List (ℕ × α)) (hsrt : SortSpec srt) (pos : α → Fin 3 → K)
    (P : List α) (lo hi : Fin 3 → K) (w : K)
    (hlo : ∀ i, IsLeast {x | ∃ q ∈ P, pos q i = x} (lo i))
    (hhi : ∀ i, IsGreatest {x | ∃ q ∈ P, pos q i = x} (hi i))
    (hw : IsGreatest {x | ∃ i, hi i - lo i = x} w) (hw0 : 0 < w) :
    ∃ out, zorderSort3d srt pos P = .ok out ∧ out.Perm P ∧
      out.Pairwise fun a b =>
        interleave 16 (gridCell pos lo w a 0).toNat (gridCell pos lo w a 1).toNat
            (gridCell pos lo w a 2).toNat ≤
          interleave 16 (gridCell pos lo w b 0).toNat (gridCell pos lo w b 1).toNat
            (gridCell pos lo w b 2).toNat := by
  cases P with
  | nil =>
    obtain ⟨q, hq, _⟩ := (hlo 0).1
    cases hq
  | cons p P =>
    refine sortByCode_ok srt hsrt _ (fun a => interleave 16 (gridCell pos lo w a 0).toNat
      (gridCell pos lo w a 1).toNat (gridCell pos lo w a 2).toNat) (p :: P) fun q hq => ?_
    obtain ⟨c0, h1, h2, h3⟩ := cells_eq pos p (p :: P) (by simp) lo hi w hlo hhi hw hw0 q hq 0
    obtain ⟨c1, h4, h5, h6⟩ := cells_eq pos p (p :: P) (by simp) lo hi w hlo hhi hw hw0 q hq 1
    obtain ⟨c2, h7, h8, h9⟩ := cells_eq pos p (p :: P) (by simp) lo hi w hlo hhi hw hw0 q hq 2
    unfold code3
    simp only [h1, h4, h7, Except.bind]
    rw [zorder3_eq _ _ _ h3 h6 h9, ← h2, ← h5, ← h8, Int.toNat_natCast, Int.toNat_natCast,
      Int.toNat_natCast]

/-- C38 is false of the code when all points coincide: the box size is zero and the conversion of the
resulting NaN to an integer is undefined. -/
theorem c38_all_equal_false (srt : List (ℕ × α) → List (ℕ × α)) (pos : α → Fin 2 → K) (p : α)
    (P : List α) (h : ∀ q ∈ P, pos q = pos p) : zorderSort2d srt pos (p :: P) = .error .ub := by
  have hlo : ∀ i, IsLeast {x | ∃ q ∈ p :: P, pos q i = x} (pos p i) := fun i =>
    ⟨⟨p, by simp, rfl⟩, by
      rintro x ⟨q, hq, rfl⟩
      rcases List.mem_cons.mp hq with rfl | hq
      · exact le_rfl
      · rw [h q hq]⟩
  have hhi : ∀ i, IsGreatest {x | ∃ q ∈ p :: P, pos q i = x} (pos p i) := fun i =>
    ⟨⟨p, by simp, rfl⟩, by
      rintro x ⟨q, hq, rfl⟩
      rcases List.mem_cons.mp hq with rfl | hq
      · exact le_rfl
      · rw [h q hq]⟩
  have hw := maxSpan_eq pos p (p :: P) (by simp) (pos p) (pos p) 0 hlo hhi
    ⟨⟨0, by simp⟩, by rintro x ⟨i, rfl⟩; simp⟩
  have hc : code2 pos p (p :: P) p = .error .ub := by
    unfold code2 cells cell boxSize
    rw [hw]
    simp [Except.bind]
  rw [zorderSort2d, sortByCode, List.mapM_cons, hc]
  rfl

/-- A non-trivial input of the planar sort: six points on a 2 by 1 grid with a repeated location. -/
example : ∃ (lo hi : Fin 2 → ℚ) (w : ℚ),
    (∀ i, IsLeast {x | ∃ q ∈ [![(0 : ℚ), 0], ![2, 1], ![1, 0], ![0, 1], ![2, 0], ![2, 0]],
      (q : Fin 2 → ℚ) i = x} (lo i)) ∧
    (∀ i, IsGreatest {x | ∃ q ∈ [![(0 : ℚ), 0], ![2, 1], ![1, 0], ![0, 1], ![2, 0], ![2, 0]],
      (q : Fin 2 → ℚ) i = x} (hi i)) ∧ IsGreatest {x | ∃ i, hi i - lo i = x} w ∧ 0 < w := by
  refine ⟨![0, 0], ![2, 1], 2, fun i => ?_, fun i => ?_, ?_, by norm_num⟩
  · fin_cases i <;> simp [IsLeast, lowerBounds] <;> rintro a (rfl | rfl | rfl | rfl | rfl) <;> norm_num
  · fin_cases i <;> simp [IsGreatest, upperBounds] <;> rintro a (rfl | rfl | rfl | rfl | rfl) <;> norm_num
  · constructor
    · exact ⟨0, by norm_num⟩
    · rintro x ⟨i, rfl⟩
      fin_cases i <;> norm_num

/-- The codes really differ from the row-major order: cell (0,1) comes after (1,0) and before (1,1), and
(2,0) comes after all of these. -/
example : zorder2 ![1, 0] = .ok 1 ∧ zorder2 ![0, 1] = .ok 2 ∧ zorder2 ![1, 1] = .ok 3 ∧
    zorder2 ![2, 0] = .ok 8 ∧ zorder3 ![65535, 65535, 65535] = .ok (2 ^ 48 - 1) := by
  decide

end Verif.Morton
