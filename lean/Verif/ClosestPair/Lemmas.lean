import Verif.ClosestPair.Model
import Mathlib.Algebra.Order.BigOperators.Ring.Finset
import Mathlib.Data.Fintype.Pi
import Mathlib.Data.Fintype.BigOperators
import Mathlib.Data.Finset.Max
import Mathlib.Tactic.Linarith
import Mathlib.Tactic.FieldSimp
import Mathlib.Tactic.Ring
import Mathlib.Tactic.IntervalCases
import Mathlib.Tactic.NormNum

set_option linter.unusedSectionVars false
set_option linter.unusedVariables false

/-!
The scan over a sorted slab, the packing argument, and one level of the divide and conquer.
-/

namespace Verif.ClosestPair

open Verif BatchKd

variable {α K : Type} {d : ℕ} [Field K] [LinearOrder K] [IsStrictOrderedRing K]

/-- The Euclidean distance in a field: not negative, with `distSqr` as its square. -/
structure SqDist (dist : Point K d → Point K d → K) : Prop where
  nonneg : ∀ p q, 0 ≤ dist p q
  sq : ∀ p q, dist p q ^ 2 = distSqr p q

section
variable {dist : Point K d → Point K d → K} {pos : α → Point K d}

theorem SqDist.comm (hd : SqDist dist) (p q : Point K d) : dist p q = dist q p := by
  have h : dist p q ^ 2 = dist q p ^ 2 := by rw [hd.sq, hd.sq, distSqr_comm]
  exact (pow_left_inj₀ (hd.nonneg _ _) (hd.nonneg _ _) (by norm_num)).mp h

theorem SqDist.coord (hd : SqDist dist) (p q : Point K d) (i : Fin d) : |p i - q i| ≤ dist p q := by
  refine abs_le_of_sq_le_sq ?_ (hd.nonneg _ _)
  rw [hd.sq]
  have := coord_le_distSqr p q i
  rwa [pow_two]

theorem SqDist.lt_of_distSqr_lt (hd : SqDist dist) {p q : Point K d} {D : K} (hD : 0 ≤ D)
    (h : distSqr p q < D ^ 2) : dist p q < D := by
  rw [← hd.sq] at h
  exact lt_of_pow_lt_pow_left₀ 2 hD h

/-! ### Pairs -/

/-- The pair is there and its distance is at most the one of `x` and `y`. -/
def Le (dist : Point K d → Point K d → K) (pos : α → Point K d) (r : PP α) (x y : α) : Prop :=
  ∃ a, r = some a ∧ dist (pos a.1) (pos a.2) ≤ dist (pos x) (pos y)

/-- A pair, if there, consists of two different members of `S`. -/
def Valid (S : List α) (r : PP α) : Prop := ∀ a, r = some a → a.1 ∈ S ∧ a.2 ∈ S ∧ a.1 ≠ a.2

theorem Valid.mono {S T : List α} {r : PP α} (h : Valid S r) (hST : S ⊆ T) : Valid T r :=
  fun a ha => ⟨hST (h a ha).1, hST (h a ha).2.1, (h a ha).2.2⟩

theorem closer_le_self (A : PP α) (u v : α) : Le dist pos (closer dist pos A u v) u v := by
  unfold closer
  split
  · exact ⟨_, rfl, le_rfl⟩
  · rename_i h
    cases A with
    | none => exact absurd rfl h
    | some b =>
      refine ⟨b, rfl, ?_⟩
      have : ¬ (dist (pos u) (pos v) < dist (pos b.1) (pos b.2)) := fun h' => h (decide_eq_true h')
      exact not_lt.mp this

theorem closer_le_of_le {A : PP α} {x y : α} (h : Le dist pos A x y) (u v : α) :
    Le dist pos (closer dist pos A u v) x y := by
  obtain ⟨b, rfl, hb⟩ := h
  unfold closer
  split
  · rename_i h
    have h' : dist (pos u) (pos v) < dist (pos b.1) (pos b.2) := of_decide_eq_true h
    exact ⟨_, rfl, le_trans h'.le hb⟩
  · exact ⟨b, rfl, hb⟩

theorem closer_valid {S : List α} {A : PP α} (h : Valid S A) {u v : α} (hu : u ∈ S) (hv : v ∈ S) (huv : u ≠ v) :
    Valid S (closer dist pos A u v) := by
  unfold closer
  split
  · rintro a ⟨⟩
    exact ⟨hu, hv, huv⟩
  · exact h

theorem foldl_le_of_le {A : PP α} {x y : α} (h : Le dist pos A x y) (u : α) (M : List α) :
    Le dist pos (M.foldl (fun B y => closer dist pos B u y) A) x y := by
  induction M generalizing A with
  | nil => exact h
  | cons v M ih => exact ih (closer_le_of_le h u v)

theorem foldl_le_mem (A : PP α) (u : α) {M : List α} {v : α} (hv : v ∈ M) :
    Le dist pos (M.foldl (fun B y => closer dist pos B u y) A) u v := by
  induction M generalizing A with
  | nil => cases hv
  | cons w M ih =>
    rcases List.mem_cons.mp hv with rfl | hv
    · exact foldl_le_of_le (closer_le_self A u v) u M
    · exact ih _ hv

theorem foldl_valid {S : List α} {A : PP α} (h : Valid S A) {u : α} (hu : u ∈ S) {M : List α} (hM : M ⊆ S)
    (hn : u ∉ M) : Valid S (M.foldl (fun B y => closer dist pos B u y) A) := by
  induction M generalizing A with
  | nil => exact h
  | cons w M ih =>
    have hw : w ∈ S := hM (List.mem_cons_self ..)
    have huw : u ≠ w := fun e => hn (e ▸ List.mem_cons_self ..)
    exact ih (closer_valid h hu hw huw) (fun z hz => hM (List.mem_cons_of_mem _ hz))
      (fun hz => hn (List.mem_cons_of_mem _ hz))

theorem scan_le_of_le (c : ℕ) {A : PP α} {x y : α} (h : Le dist pos A x y) (L : List α) :
    Le dist pos (scan dist pos c A L) x y := by
  induction L generalizing A with
  | nil => exact h
  | cons u L ih => exact ih (foldl_le_of_le h u _)

theorem scan_le_mem (c : ℕ) (A : PP α) (l₁ : List α) (x : α) (l₂ : List α) {y : α} (hy : y ∈ l₂.take c) :
    Le dist pos (scan dist pos c A (l₁ ++ x :: l₂)) x y := by
  induction l₁ generalizing A with
  | nil => exact scan_le_of_le c (foldl_le_mem A x hy) l₂
  | cons u l₁ ih => exact ih _

theorem scan_valid (c : ℕ) {S : List α} {A : PP α} (h : Valid S A) {L : List α} (hL : L ⊆ S) (hn : L.Nodup) :
    Valid S (scan dist pos c A L) := by
  induction L generalizing A with
  | nil => exact h
  | cons u L ih =>
    have hn' := List.nodup_cons.mp hn
    refine ih (foldl_valid h (hL (List.mem_cons_self ..)) ?_ ?_) ?_ hn'.2
    · exact fun z hz => hL (List.mem_cons_of_mem _ (List.mem_of_mem_take hz))
    · exact fun hz => hn'.1 (List.mem_of_mem_take hz)
    · exact fun z hz => hL (List.mem_cons_of_mem _ hz)

/-- Two different members of a list: one comes first. -/
theorem two_split {L : List α} {x y : α} (hx : x ∈ L) (hy : y ∈ L) (hxy : x ≠ y) :
    (∃ l₁ l₂, L = l₁ ++ x :: l₂ ∧ y ∈ l₂) ∨ (∃ l₁ l₂, L = l₁ ++ y :: l₂ ∧ x ∈ l₂) := by
  obtain ⟨l₁, l₂, rfl⟩ := List.append_of_mem hx
  rcases List.mem_append.mp hy with h | h
  · obtain ⟨a, b, rfl⟩ := List.append_of_mem h
    right
    exact ⟨a, b ++ x :: l₂, by simp, by simp⟩
  · rcases List.mem_cons.mp h with h | h
    · exact absurd h.symm hxy
    · left; exact ⟨l₁, l₂, rfl, h⟩

theorem Le.symm (hd : SqDist dist) {r : PP α} {x y : α} (h : Le dist pos r x y) : Le dist pos r y x := by
  obtain ⟨a, ha, hle⟩ := h
  exact ⟨a, ha, by rw [hd.comm (pos y)]; exact hle⟩

/-- The brute-force search sees all pairs. -/
theorem scan_all (hd : SqDist dist) (A : PP α) {L : List α} {x y : α} (hx : x ∈ L) (hy : y ∈ L) (hxy : x ≠ y) :
    Le dist pos (scan dist pos L.length A L) x y := by
  rcases two_split hx hy hxy with ⟨l₁, l₂, rfl, h⟩ | ⟨l₁, l₂, rfl, h⟩
  · exact scan_le_mem _ A l₁ x l₂ (by rw [List.take_of_length_le (by simp; omega)]; exact h)
  · exact (scan_le_mem _ A l₁ y l₂ (by rw [List.take_of_length_le (by simp; omega)]; exact h)).symm hd

/-! ### Packing -/

/-- A point of an interval lies in one of its `s` equal parts. -/
theorem exists_part {lo h x : K} (s : ℕ) (hs : 0 < s) (h0 : lo ≤ x) (h1 : x ≤ lo + s * h) :
    ∃ j : Fin s, lo + j * h ≤ x ∧ x ≤ lo + (j + 1) * h := by
  induction s with
  | zero => omega
  | succ s ih =>
    by_cases hc : x ≤ lo + s * h
    · rcases Nat.eq_zero_or_pos s with rfl | hs'
      · refine ⟨⟨0, by omega⟩, by simpa using h0, ?_⟩
        simpa using h1
      · obtain ⟨j, hj⟩ := ih hs' hc
        exact ⟨⟨j, by omega⟩, hj⟩
    · exact ⟨⟨s, by omega⟩, (not_le.mp hc).le, by simpa using h1⟩

/-- What is known about the points of a call along coordinate `k`: they are within slabs of all higher coordinates, and
points on the same side of the middle of such a slab are at least half its width apart. -/
def Ctx (dist : Point K d → Point K d → K) (pos : α → Point K d) (k : ℕ) (P : List α) (m δ : Fin d → K)
    (side : Fin d → α → Bool) : Prop :=
  ∀ i : Fin d, k < i → 0 < δ i ∧
    (∀ p ∈ P, if side i p then m i - δ i ≤ pos p i ∧ pos p i ≤ m i else m i ≤ pos p i ∧ pos p i ≤ m i + δ i) ∧
    (∀ p ∈ P, ∀ q ∈ P, p ≠ q → side i p = side i q → δ i ≤ dist (pos p) (pos q))

theorem Ctx.mono {k : ℕ} {P Q : List α} {m δ : Fin d → K} {side : Fin d → α → Bool}
    (h : Ctx dist pos k P m δ side) (hQ : Q ⊆ P) : Ctx dist pos k Q m δ side := fun i hi =>
  ⟨(h i hi).1, fun p hp => (h i hi).2.1 p (hQ hp), fun p hp q hq => (h i hi).2.2 p (hQ hp) q (hQ hq)⟩

/-- Number of parts per coordinate. -/
def parts (d : ℕ) (z s : Fin d) (i : Fin d) : ℕ := if i = z ∨ i = s then 2 else 4

theorem parts_pos (z s i : Fin d) : 0 < parts d z s i := by
  unfold parts; split <;> omega

/-- The number of cells is one more than the number of points checked. -/
theorem cells_eq : ∀ d : ℕ, 2 ≤ d → d ≤ 4 → ∀ z s : Fin d, z ≠ s →
    2 * ∏ i, parts d z s i = numToCheck d + 1 := by
  intro d h2 h4
  interval_cases d <;> decide

/-- Points in a window shorter than the slab of coordinate 1: there are at most as many as cells. -/
theorem window_card (hD : SqDist dist) (h2 : 2 ≤ d) (h4 : d ≤ 4) {P : List α} {m δ : Fin d → K}
    {side : Fin d → α → Bool} (hC : Ctx dist pos 0 P m δ side) (z o : Fin d) (hz : (z : ℕ) = 0) (ho : (o : ℕ) = 1)
    {a w : K} (hw0 : 0 ≤ w) (hw : w < δ o) (hn : P.Nodup) (hP : ∀ p ∈ P, a ≤ pos p z ∧ pos p z ≤ a + w) :
    P.length ≤ numToCheck d + 1 := by
  classical
  -- the widest slab
  have hne : (Finset.univ.filter fun i : Fin d => 0 < (i : ℕ)).Nonempty := ⟨o, by simp [ho]⟩
  obtain ⟨s, hs, hmax⟩ := Finset.exists_max_image (Finset.univ.filter fun i : Fin d => 0 < (i : ℕ)) δ hne
  have hs0 : 0 < (s : ℕ) := (Finset.mem_filter.mp hs).2
  have hzs : z ≠ s := fun e => by rw [e] at hz; omega
  have hδs := (hC s hs0).1
  have hle : ∀ i : Fin d, 0 < (i : ℕ) → δ i ≤ δ s := fun i hi => hmax i (by simp [hi])
  -- cells
  let h : Fin d → K := fun i => if i = z then w / 2 else δ i / 2
  let lo : Bool → Fin d → K := fun b i =>
    if i = z then a else if i = s then (if b then m i - δ i else m i) else m i - δ i
  have hcell : ∀ p, ∀ i : Fin d, ∃ j : Fin (parts d z s i), p ∈ P →
      lo (side s p) i + j * h i ≤ pos p i ∧ pos p i ≤ lo (side s p) i + (j + 1) * h i := by
    intro p i
    by_cases hp : p ∈ P
    · have key : lo (side s p) i ≤ pos p i ∧ pos p i ≤ lo (side s p) i + (parts d z s i : ℕ) * h i := by
        by_cases hi : i = z
        · subst hi
          have := hP p hp
          simp only [lo, h, parts, if_true, true_or]
          constructor
          · exact this.1
          · push_cast; linarith [this.2]
        · have hi0 : 0 < (i : ℕ) := by
            rcases Nat.eq_zero_or_pos (i : ℕ) with h' | h'
            · exact absurd (Fin.ext (h'.trans hz.symm)) hi
            · exact h'
          have hb := (hC i hi0).2.1 p hp
          have hpos := (hC i hi0).1
          by_cases his : i = s
          · subst his
            simp only [lo, h, parts, if_neg hi, if_true, or_true]
            split at hb
            · rename_i hside
              rw [if_pos hside]
              push_cast
              constructor <;> linarith [hb.1, hb.2]
            · rename_i hside
              rw [if_neg hside]
              push_cast
              constructor <;> linarith [hb.1, hb.2]
          · simp only [lo, h, parts, if_neg hi, if_neg his, hi, his, or_self, if_false]
            split at hb
            · push_cast; constructor <;> linarith [hb.1, hb.2]
            · push_cast; constructor <;> linarith [hb.1, hb.2]
      obtain ⟨j, hj⟩ := exists_part _ (parts_pos z s i) key.1 key.2
      exact ⟨j, fun _ => hj⟩
    · exact ⟨⟨0, parts_pos z s i⟩, fun h => absurd h hp⟩
  choose cell hcell using hcell
  by_contra hlong
  have hcard : Fintype.card (Bool × ∀ i : Fin d, Fin (parts d z s i)) = numToCheck d + 1 := by
    rw [Fintype.card_prod, Fintype.card_pi, Fintype.card_bool]
    simp only [Fintype.card_fin]
    exact cells_eq d h2 h4 z s hzs
  have hlt : (Finset.univ : Finset (Bool × ∀ i : Fin d, Fin (parts d z s i))).card < P.toFinset.card := by
    rw [Finset.card_univ, hcard, List.toFinset_card_of_nodup hn]; omega
  obtain ⟨p, hp, q, hq, hpq, he⟩ := Finset.exists_ne_map_eq_of_card_lt_of_maps_to hlt
    (f := fun p => (side s p, cell p)) (fun _ _ => Finset.mem_univ _)
  have hp := List.mem_toFinset.mp hp
  have hq := List.mem_toFinset.mp hq
  have hside : side s p = side s q := congrArg Prod.fst he
  have hce : cell p = cell q := congrArg Prod.snd he
  have hfar := (hC s hs0).2.2 p hp q hq hpq hside
  have hdiff : ∀ i, |pos p i - pos q i| ≤ h i := by
    intro i
    have h1 := hcell p i hp
    have h2 := hcell q i hq
    rw [hside, hce] at h1
    rw [abs_le]
    constructor <;> linarith [h1.1, h1.2, h2.1, h2.2]
  have hsum : distSqr (pos p) (pos q) < δ s ^ 2 := by
    have hstep : ∀ i, (pos p i - pos q i) * (pos p i - pos q i) ≤ h i * h i := by
      intro i
      have := hdiff i
      have h' := abs_nonneg (pos p i - pos q i)
      calc (pos p i - pos q i) * (pos p i - pos q i) = |pos p i - pos q i| * |pos p i - pos q i| := (abs_mul_abs_self _).symm
        _ ≤ h i * h i := mul_le_mul this this h' (le_trans h' this)
    have hh : ∀ i, h i * h i ≤ (δ s / 2) * (δ s / 2) := by
      intro i
      by_cases hi : i = z
      · have hw2 : w ≤ δ s := le_trans hw.le (hle o (by omega))
        simp only [h, if_pos hi]
        exact mul_le_mul (by linarith) (by linarith) (by linarith) (by linarith)
      · have hi0 : 0 < (i : ℕ) := by
          rcases Nat.eq_zero_or_pos (i : ℕ) with h' | h'
          · exact absurd (Fin.ext (h'.trans hz.symm)) hi
          · exact h'
        have := hle i hi0
        have hp := (hC i hi0).1
        simp only [h, if_neg hi]
        exact mul_le_mul (by linarith) (by linarith) (by linarith) (by linarith)
    have hstrict : (pos p z - pos q z) * (pos p z - pos q z) < (δ s / 2) * (δ s / 2) := by
      refine lt_of_le_of_lt (hstep z) ?_
      have hw2 : w < δ s := lt_of_lt_of_le hw (hle o (by omega))
      simp only [h, if_true]
      exact mul_lt_mul'' (by linarith) (by linarith) (by linarith) (by linarith)
    have : distSqr (pos p) (pos q) < ∑ _i : Fin d, (δ s / 2) * (δ s / 2) := by
      unfold distSqr
      exact Finset.sum_lt_sum (fun i _ => le_trans (hstep i) (hh i)) ⟨z, Finset.mem_univ _, hstrict⟩
    rw [Finset.sum_const, Finset.card_univ, Fintype.card_fin, nsmul_eq_mul] at this
    refine lt_of_lt_of_le this ?_
    have h4' : (d : K) ≤ 4 := by exact_mod_cast h4
    have hsq : 0 ≤ (δ s / 2) * (δ s / 2) := mul_self_nonneg _
    calc (d : K) * (δ s / 2 * (δ s / 2)) ≤ 4 * (δ s / 2 * (δ s / 2)) := mul_le_mul_of_nonneg_right h4' hsq
      _ = δ s ^ 2 := by ring
  exact absurd (hD.lt_of_distSqr_lt hδs.le hsum) (not_lt.mpr hfar)

/-! ### The slab -/

/-- In the list `P`, no window of coordinate 0 of a slab holds more points than are checked. -/
def Packs (dist : Point K d → Point K d → K) (pos : α → Point K d) (P : List α) : Prop :=
  ∀ W : List α, W ⊆ P → W.Nodup → ∀ (m δ : Fin d → K) (side : Fin d → α → Bool), Ctx dist pos 0 W m δ side →
    ∀ z o : Fin d, (z : ℕ) = 0 → (o : ℕ) = 1 → ∀ a w : K, 0 ≤ w → w < δ o →
      (∀ p ∈ W, a ≤ pos p z ∧ pos p z ≤ a + w) → W.length ≤ numToCheck d + 1

theorem Packs.mono {P Q : List α} (h : Packs dist pos P) (hQ : Q ⊆ P) : Packs dist pos Q :=
  fun W hW => h W (fun _ hx => hQ (hW hx))

theorem packs_of_le (hD : SqDist dist) (h2 : 2 ≤ d) (h4 : d ≤ 4) (P : List α) : Packs dist pos P :=
  fun _ _ hn _ _ _ hC z o hz ho _ _ hw0 hw hP => window_card hD h2 h4 hC z o hz ho hw0 hw hn hP

theorem packs_of_length {P : List α} (h : P.length ≤ numToCheck d + 1) : Packs dist pos P := by
  intro W hW hn _ _ _ _ _ _ _ _ _ _ _ _ _
  classical
  exact le_trans (hn.subperm hW).length_le h

theorem scan_window (hD : SqDist dist) {S : List α} {m δ : Fin d → K}
    {side : Fin d → α → Bool} (hC : Ctx dist pos 0 S m δ side) (z o : Fin d) (hz : (z : ℕ) = 0) (ho : (o : ℕ) = 1)
    (hn : S.Nodup) (hs : S.Pairwise fun x y => pos x z ≤ pos y z) (hpk : Packs dist pos S)
    {l₁ l₂ : List α} {x y : α} (hS : S = l₁ ++ x :: l₂) (hy : y ∈ l₂) (hlt : dist (pos x) (pos y) < δ o) :
    Le dist pos (scan dist pos (numToCheck d) none S) x y := by
  obtain ⟨a, b, rfl⟩ := List.append_of_mem hy
  have hW : (x :: (a ++ [y])).Sublist S := by
    rw [hS]
    have : (x :: (a ++ [y])).Sublist (x :: (a ++ y :: b)) :=
      List.Sublist.cons_cons _ ((List.Sublist.refl a).append (List.singleton_sublist.mpr (List.mem_cons_self ..)))
    exact this.trans (List.sublist_append_right _ _)
  have hs' := hs.sublist hW
  have hxy : ∀ p ∈ x :: (a ++ [y]), pos x z ≤ pos p z ∧ pos p z ≤ pos x z + (pos y z - pos x z) := by
    intro p hp
    have h1 := List.pairwise_cons.mp hs'
    have h2 := List.pairwise_append.mp h1.2
    have hyz : pos x z ≤ pos y z := h1.1 y (by simp)
    rcases List.mem_cons.mp hp with rfl | hp
    · exact ⟨le_rfl, by linarith⟩
    · refine ⟨h1.1 p hp, ?_⟩
      rcases List.mem_append.mp hp with hp | hp
      · have := h2.2.2 p hp y (List.mem_singleton_self _)
        linarith
      · rw [List.mem_singleton.mp hp]; linarith
  have hlen := hpk _ hW.subset (hn.sublist hW) m δ side (hC.mono hW.subset) z o hz ho (pos x z) (pos y z - pos x z)
    (by have := (hxy y (by simp)).1; linarith)
    (lt_of_le_of_lt (by
      have := hD.coord (pos x) (pos y) z
      rw [abs_sub_comm] at this
      exact le_trans (le_abs_self _) this) hlt) hxy
  rw [hS]
  refine scan_le_mem _ _ _ _ _ ?_
  have hal : a.length < numToCheck d := by
    simp only [List.length_cons, List.length_append, List.length_nil] at hlen
    omega
  rw [List.take_append]
  refine List.mem_append_right _ ?_
  obtain ⟨c, hc⟩ : ∃ c, numToCheck d - a.length = c + 1 := ⟨numToCheck d - a.length - 1, by omega⟩
  rw [hc, List.take_succ_cons]
  exact List.mem_cons_self ..

theorem slabScan_ok (hD : SqDist dist) {srt : Fin d → List α → List α} (hsrt : SortItems srt pos) (h0 : 0 < d)
    (h1 : 1 < d) {S : List α} {m δ : Fin d → K} {side : Fin d → α → Bool} (hn : S.Nodup)
    (hC : Ctx dist pos 0 S m δ side) (hpk : Packs dist pos S) :
    ∃ r, slabScan dist pos h0 srt S = .ok r ∧ Valid S r ∧
      ∀ x ∈ S, ∀ y ∈ S, x ≠ y → dist (pos x) (pos y) < δ ⟨1, h1⟩ → Le dist pos r x y := by
  obtain ⟨hp, hs⟩ := hsrt ⟨0, h0⟩ S
  have hsub : srt ⟨0, h0⟩ S ⊆ S := hp.subset
  have hn' : (srt ⟨0, h0⟩ S).Nodup := hp.nodup_iff.mpr hn
  refine ⟨_, rfl, scan_valid _ (by rintro _ ⟨⟩) hsub hn', fun x hx y hy hxy hlt => ?_⟩
  have hx' := hp.mem_iff.mpr hx
  have hy' := hp.mem_iff.mpr hy
  rcases two_split hx' hy' hxy with ⟨l₁, l₂, he, h⟩ | ⟨l₁, l₂, he, h⟩
  · exact scan_window hD (hC.mono hsub) ⟨0, h0⟩ ⟨1, h1⟩ rfl rfl hn' hs (hpk.mono hsub) he h hlt
  · exact (scan_window hD (hC.mono hsub) ⟨0, h0⟩ ⟨1, h1⟩ rfl rfl hn' hs (hpk.mono hsub) he h
      (by rw [hD.comm]; exact hlt)).symm hD

/-! ### One level -/

/-- Specification: two different members at smallest distance. -/
def Closest (dist : Point K d → Point K d → K) (pos : α → Point K d) (P : List α) (u v : α) : Prop :=
  u ∈ P ∧ v ∈ P ∧ u ≠ v ∧ ∀ x ∈ P, ∀ y ∈ P, x ≠ y → dist (pos u) (pos v) ≤ dist (pos x) (pos y)

theorem level_ok (hD : SqDist dist) {srt : Fin d → List α → List α} (hsrt : SortItems srt pos) {base : ℕ}
    (hbase : 4 ≤ base) {small slabSolve : List α → Except Err (PP α)} {k : Fin d} (hk : 0 < (k : ℕ)) {Q : List α}
    (hsmall : ∀ P m δ side, P ⊆ Q → P.length < base → 2 ≤ P.length → P.Nodup → Ctx dist pos k P m δ side →
      ∃ u v, small P = .ok (some (u, v)) ∧ Closest dist pos P u v)
    (hslab : ∀ S m δ side, S ⊆ Q → S ≠ [] → S.Nodup → Ctx dist pos (k - 1) S m δ side →
      ∃ r, slabSolve S = .ok r ∧ Valid S r ∧
        ∀ x ∈ S, ∀ y ∈ S, x ≠ y → dist (pos x) (pos y) < δ k → Le dist pos r x y) :
    ∀ fuel P m δ side, P.length < fuel → P ⊆ Q → 2 ≤ P.length → P.Nodup → Ctx dist pos k P m δ side →
      ∃ u v, level dist pos srt base small slabSolve k fuel P = .ok (some (u, v)) ∧ Closest dist pos P u v := by
  classical
  intro fuel
  induction fuel with
  | zero => intro P _ _ _ h; omega
  | succ fuel ih =>
    intro P m δ side hf hQ h2 hn hC
    rw [level]
    by_cases hb : P.length < base
    · rw [if_pos hb]
      exact hsmall P m δ side hQ hb h2 hn hC
    rw [if_neg hb]
    obtain ⟨hp, hs⟩ := hsrt k P
    generalize hP' : srt k P = P' at hp hs
    have hlen := hp.length_eq
    have hn' : P'.Nodup := hp.nodup_iff.mpr hn
    have hsub : P' ⊆ P := hp.subset
    have hxm : P.length / 2 < P'.length := by omega
    generalize hxe : P.length / 2 = xm at hxm
    have hc : P'[xm]? = some P'[xm] := List.getElem?_eq_getElem hxm
    simp only [hP', hxe, hc]
    generalize hcdef : P'[xm] = c at hc
    -- halves
    have hLsub : P'.take xm ⊆ P := fun x hx => hsub (List.mem_of_mem_take hx)
    have hRsub : P'.drop xm ⊆ P := fun x hx => hsub (List.mem_of_mem_drop hx)
    obtain ⟨u₁, v₁, e₁, hu₁, hv₁, hne₁, hmin₁⟩ := ih (P'.take xm) m δ side
      (by rw [List.length_take]; omega) (fun x hx => hQ (hLsub hx)) (by rw [List.length_take]; omega)
      (hn'.sublist (List.take_sublist ..)) (hC.mono hLsub)
    obtain ⟨u₂, v₂, e₂, hu₂, hv₂, hne₂, hmin₂⟩ := ih (P'.drop xm) m δ side
      (by rw [List.length_drop]; omega) (fun x hx => hQ (hRsub hx)) (by rw [List.length_drop]; omega)
      (hn'.sublist (List.drop_sublist ..)) (hC.mono hRsub)
    rw [e₁, e₂]
    simp only [Except.bind]
    obtain ⟨b, hbe, hb1, hb2, hbn, hbl, hbr⟩ : ∃ b,
        (if ppLt dist pos (some (u₁, v₁)) (some (u₂, v₂)) = true then some (u₁, v₁) else some (u₂, v₂)) = some b ∧
        b.1 ∈ P ∧ b.2 ∈ P ∧ b.1 ≠ b.2 ∧
        (∀ x ∈ P'.take xm, ∀ y ∈ P'.take xm, x ≠ y → dist (pos b.1) (pos b.2) ≤ dist (pos x) (pos y)) ∧
        (∀ x ∈ P'.drop xm, ∀ y ∈ P'.drop xm, x ≠ y → dist (pos b.1) (pos b.2) ≤ dist (pos x) (pos y)) := by
      split
      · rename_i h
        have h' : dist (pos u₁) (pos v₁) < dist (pos u₂) (pos v₂) := of_decide_eq_true h
        exact ⟨_, rfl, hLsub hu₁, hLsub hv₁, hne₁, hmin₁, fun x hx y hy hxy => le_trans h'.le (hmin₂ x hx y hy hxy)⟩
      · rename_i h
        have h' : ¬ dist (pos u₁) (pos v₁) < dist (pos u₂) (pos v₂) := fun h' => h (decide_eq_true h')
        exact ⟨_, rfl, hRsub hu₂, hRsub hv₂, hne₂,
          fun x hx y hy hxy => le_trans (not_lt.mp h') (hmin₁ x hx y hy hxy), hmin₂⟩
    rw [hbe]
    dsimp only
    generalize hδ : dist (pos b.1) (pos b.2) = D at hbl hbr
    by_cases hD0 : D = 0
    · rw [if_pos hD0]
      refine ⟨b.1, b.2, rfl, hb1, hb2, hbn, fun x _ y _ _ => ?_⟩
      rw [hδ, hD0]
      exact hD.nonneg _ _
    rw [if_neg hD0]
    have hDpos : 0 < D := lt_of_le_of_ne (hδ ▸ hD.nonneg _ _) (Ne.symm hD0)
    generalize hSdef : P'.filter (inSlab pos k (pos c k) D) = S
    have hSmem : ∀ x, x ∈ S ↔ x ∈ P' ∧ pos x k ≤ pos c k + D ∧ pos c k - D ≤ pos x k := by
      intro x
      rw [← hSdef, List.mem_filter, inSlab, Bool.and_eq_true, decide_eq_true_eq, decide_eq_true_eq]
    have hcP : c ∈ P' := hcdef ▸ List.getElem_mem hxm
    have hcS : c ∈ S := (hSmem c).mpr ⟨hcP, by linarith, by linarith⟩
    have hSP : S ⊆ P := fun x hx => hsub ((hSmem x).mp hx).1
    have hSn : S.Nodup := hSdef ▸ hn'.filter _
    -- sides
    have happ : P' = P'.take xm ++ P'.drop xm := (List.take_append_drop xm P').symm
    have hcdrop : P'.drop xm = c :: P'.drop (xm + 1) := by
      rw [List.drop_eq_getElem_cons hxm, hcdef]
    have hpw := List.pairwise_append.mp (happ ▸ hs)
    have hleL : ∀ x ∈ P'.take xm, pos x k ≤ pos c k := fun x hx =>
      hpw.2.2 x hx c (hcdrop ▸ List.mem_cons_self ..)
    have hleR : ∀ x ∈ P'.drop xm, pos c k ≤ pos x k := by
      intro x hx
      have h2 := hpw.2.1
      rw [hcdrop] at hx h2
      rcases List.mem_cons.mp hx with rfl | hx
      · exact le_rfl
      · exact (List.pairwise_cons.mp h2).1 x hx
    have hor : ∀ x ∈ P', x ∈ P'.take xm ∨ x ∈ P'.drop xm := fun x hx => List.mem_append.mp (happ ▸ hx)
    have hctx : Ctx dist pos (k - 1) S (Function.update m k (pos c k)) (Function.update δ k D)
        (Function.update side k fun x => decide (x ∈ P'.take xm)) := by
      intro i hi
      by_cases hik : i = k
      · subst hik
        simp only [Function.update_self, decide_eq_true_eq]
        refine ⟨hDpos, fun p hp => ?_, fun p hp q hq hpq hside => ?_⟩
        · obtain ⟨hpP, h1, h2⟩ := (hSmem p).mp hp
          split
          · rename_i h
            exact ⟨h2, hleL p h⟩
          · rename_i h
            exact ⟨hleR p ((hor p hpP).resolve_left h), h1⟩
        · have hpP := ((hSmem p).mp hp).1
          have hqP := ((hSmem q).mp hq).1
          have hside' : p ∈ P'.take xm ↔ q ∈ P'.take xm := by
            have := decide_eq_decide.mp hside
            exact this
          by_cases hpl : p ∈ P'.take xm
          · exact hbl p hpl q (hside'.mp hpl) hpq
          · exact hbr p ((hor p hpP).resolve_left hpl) q ((hor q hqP).resolve_left fun h => hpl (hside'.mpr h)) hpq
      · simp only [Function.update_of_ne hik]
        have hik' : (i : ℕ) ≠ k := fun e => hik (Fin.ext e)
        exact (hC.mono hSP) i (by omega)
    obtain ⟨r, hr, hval, hle⟩ := hslab S _ _ _ (fun x hx => hQ (hSP hx)) (List.ne_nil_of_mem hcS) hSn hctx
    rw [Function.update_self] at hle
    rw [hr]
    -- any closer pair lies in the slab
    have hclose : ∀ x ∈ P, ∀ y ∈ P, x ≠ y → dist (pos x) (pos y) < D → Le dist pos r x y := by
      have aux : ∀ x ∈ P'.take xm, ∀ y ∈ P'.drop xm, dist (pos x) (pos y) < D → x ∈ S ∧ y ∈ S := by
        intro x hx y hy hlt
        have hco := lt_of_le_of_lt (hD.coord (pos x) (pos y) k) hlt
        rw [abs_lt] at hco
        have h1 := hleL x hx
        have h2 := hleR y hy
        exact ⟨(hSmem x).mpr ⟨List.mem_of_mem_take hx, by linarith, by linarith [hco.1]⟩,
          (hSmem y).mpr ⟨List.mem_of_mem_drop hy, by linarith [hco.1], by linarith⟩⟩
      intro x hx y hy hxy hlt
      rcases hor x (hp.mem_iff.mpr hx) with hxl | hxr
      · rcases hor y (hp.mem_iff.mpr hy) with hyl | hyr
        · exact absurd hlt (not_lt.mpr (hbl x hxl y hyl hxy))
        · obtain ⟨h1, h2⟩ := aux x hxl y hyr hlt
          exact hle x h1 y h2 hxy hlt
      · rcases hor y (hp.mem_iff.mpr hy) with hyl | hyr
        · obtain ⟨h1, h2⟩ := aux y hyl x hxr (by rw [hD.comm]; exact hlt)
          exact hle x h2 y h1 hxy hlt
        · exact absurd hlt (not_lt.mpr (hbr x hxr y hyr hxy))
    simp only [Except.map]
    split
    · rename_i h
      cases r with
      | none => exact absurd h (by simp [ppLt])
      | some a =>
        have hlt : dist (pos a.1) (pos a.2) < D := hδ ▸ of_decide_eq_true h
        obtain ⟨ha1, ha2, han⟩ := hval a rfl
        refine ⟨a.1, a.2, rfl, hSP ha1, hSP ha2, han, fun x hx y hy hxy => ?_⟩
        by_cases hxyD : dist (pos x) (pos y) < D
        · obtain ⟨a', ha', hle'⟩ := hclose x hx y hy hxy hxyD
          cases ha'
          exact hle'
        · exact le_trans hlt.le (not_lt.mp hxyD)
    · rename_i h
      refine ⟨b.1, b.2, rfl, hb1, hb2, hbn, fun x hx y hy hxy => ?_⟩
      rw [hδ]
      by_contra hlt
      have hlt := not_le.mp hlt
      obtain ⟨a, rfl, ha⟩ := hclose x hx y hy hxy hlt
      exact h (decide_eq_true (by rw [hδ]; exact lt_of_le_of_lt ha hlt))

/-! ### The runs -/

theorem brute_ok (hD : SqDist dist) {P : List α} (strict : Bool) (h2 : 2 ≤ P.length) (hn : P.Nodup) :
    ∃ u v, brute dist pos strict P = .ok (some (u, v)) ∧ Closest dist pos P u v := by
  have hb : brute dist pos strict P = .ok (scan dist pos P.length none P) := by
    unfold brute
    rw [if_neg]
    simp; omega
  match P, h2 with
  | x :: y :: P, h2 =>
    have hxy : x ≠ y := fun e => (List.nodup_cons.mp hn).1 (e ▸ List.mem_cons_self ..)
    obtain ⟨a, ha, hle⟩ := scan_all (pos := pos) hD none (L := x :: y :: P) (x := x) (y := y) (by simp) (by simp) hxy
    obtain ⟨h1, h2, h3⟩ := scan_valid (dist := dist) (pos := pos) (x :: y :: P).length (S := x :: y :: P) (A := none)
      (by rintro _ ⟨⟩) (fun _ h => h) hn a ha
    refine ⟨a.1, a.2, by rw [hb, ha], h1, h2, h3, fun p hp q hq hpq => ?_⟩
    obtain ⟨a', ha', hle'⟩ := scan_all (pos := pos) hD none hp hq hpq
    rw [ha] at ha'
    cases ha'
    exact hle'

theorem brute_single {P : List α} (h1 : P.length < 2) : brute dist pos false P = .ok none := by
  match P, h1 with
  | [], _ => rfl
  | [x], _ => rfl
  | x :: y :: P, h1 => simp at h1; omega

/-- What a solver does on one level lower. -/
theorem serial_small {strict : Bool} {srt : Fin d → List α → List α} {k : ℕ} {h : k < d} {P : List α}
    (hP : P.length < 100) : serial dist pos strict srt k h P = brute dist pos strict P := by
  match k with
  | 0 => rw [serial, level, if_pos hP]
  | 1 => rw [serial, level, if_pos hP]
  | k + 2 => rw [serial, level, if_pos hP]

theorem parallel_small {strict : Bool} {srt : Fin d → List α → List α} {k : ℕ} {h : k < d} {P : List α}
    (hP : P.length < 10000) : parallel dist pos strict srt k h P = serial dist pos strict srt k h P := by
  match k with
  | 0 => rw [parallel, level, if_pos hP]
  | 1 => rw [parallel, level, if_pos hP]
  | k + 2 => rw [parallel, level, if_pos hP]

/-- The slab solver built from a solver of the next lower coordinate. -/
theorem slab_of_closest (hD : SqDist dist) {Q : List α} {k : ℕ} {f : List α → Except Err (PP α)}
    (hone : ∀ S : List α, S.length < 2 → f S = .ok none)
    (hf : ∀ (S : List α) (m δ : Fin d → K) (side : Fin d → α → Bool), S ⊆ Q → 2 ≤ S.length → S.Nodup →
      Ctx dist pos k S m δ side → ∃ u v, f S = .ok (some (u, v)) ∧ Closest dist pos S u v)
    (S : List α) (m δ : Fin d → K) (side : Fin d → α → Bool) (hS : S ⊆ Q) (hn : S.Nodup)
    (hC : Ctx dist pos k S m δ side) (t : K) :
    ∃ r, f S = .ok r ∧ Valid S r ∧ ∀ x ∈ S, ∀ y ∈ S, x ≠ y → dist (pos x) (pos y) < t → Le dist pos r x y := by
  by_cases h2 : 2 ≤ S.length
  · obtain ⟨u, v, he, hu, hv, hne, hmin⟩ := hf S m δ side hS h2 hn hC
    refine ⟨_, he, ?_, fun x hx y hy hxy _ => ⟨_, rfl, hmin x hx y hy hxy⟩⟩
    rintro a ⟨⟩
    exact ⟨hu, hv, hne⟩
  · refine ⟨_, hone S (by omega), (by rintro _ ⟨⟩), fun x hx y hy hxy _ => ?_⟩
    match S, h2 with
    | [], _ => cases hx
    | [z], _ => exact absurd ((List.mem_singleton.mp hx).trans (List.mem_singleton.mp hy).symm) hxy
    | a :: b :: S, h2 => simp at h2

theorem serial_ok (hD : SqDist dist) {srt : Fin d → List α → List α} (hsrt : SortItems srt pos) {Q : List α}
    (hpk : Packs dist pos Q) :
    ∀ (k : ℕ) (h : k < d) (_ : 0 < k) (P : List α) (m δ : Fin d → K) (side : Fin d → α → Bool), P ⊆ Q →
      2 ≤ P.length → P.Nodup → Ctx dist pos k P m δ side →
      ∃ u v, serial dist pos false srt k h P = .ok (some (u, v)) ∧ Closest dist pos P u v := by
  intro k
  induction k with
  | zero => intro _ h0; omega
  | succ k ih =>
    intro h _ P m δ side hP h2 hn hC
    match k, ih with
    | 0, _ =>
      rw [serial]
      refine level_ok hD hsrt (by norm_num) (k := ⟨1, h⟩) (by simp) (Q := Q)
        (fun P _ _ _ _ _ h2 hn _ => brute_ok hD false h2 hn) ?_ _ P m δ side (by omega) hP h2 hn hC
      intro S m δ side hS _ hn hC
      exact slabScan_ok hD hsrt (by omega) h hn hC (hpk.mono hS)
    | k + 1, ih =>
      rw [serial]
      refine level_ok hD hsrt (by norm_num) (k := ⟨k + 2, h⟩) (by simp) (Q := Q)
        (fun P _ _ _ _ _ h2 hn _ => brute_ok hD false h2 hn) ?_ _ P m δ side (by omega) hP h2 hn hC
      intro S m δ side hS _ hn hC
      refine slab_of_closest hD (k := k + 1) (fun S h1 => ?_) (fun S m δ side hS h2 hn hC => ?_) S m δ side hS hn hC _
      · rw [serial_small (by omega)]; exact brute_single h1
      · exact ih (by omega) (by omega) S m δ side hS h2 hn hC

theorem parallel_ok (hD : SqDist dist) {srt : Fin d → List α → List α} (hsrt : SortItems srt pos) {Q : List α}
    (hpk : Packs dist pos Q) :
    ∀ (k : ℕ) (h : k < d) (_ : 0 < k) (P : List α) (m δ : Fin d → K) (side : Fin d → α → Bool), P ⊆ Q →
      2 ≤ P.length → P.Nodup → Ctx dist pos k P m δ side →
      ∃ u v, parallel dist pos false srt k h P = .ok (some (u, v)) ∧ Closest dist pos P u v := by
  intro k
  induction k with
  | zero => intro _ h0; omega
  | succ k ih =>
    intro h h0 P m δ side hP h2 hn hC
    match k, ih with
    | 0, _ =>
      rw [parallel]
      refine level_ok hD hsrt (by norm_num) (k := ⟨1, h⟩) (by simp) (Q := Q)
        (fun P m δ side hP _ h2 hn hC => serial_ok hD hsrt hpk 1 h (by omega) P m δ side hP h2 hn hC)
        ?_ _ P m δ side (by omega) hP h2 hn hC
      intro S m δ side hS _ hn hC
      exact slabScan_ok hD hsrt (by omega) h hn hC (hpk.mono hS)
    | k + 1, ih =>
      rw [parallel]
      refine level_ok hD hsrt (by norm_num) (k := ⟨k + 2, h⟩) (by simp) (Q := Q)
        (fun P m δ side hP _ h2 hn hC => serial_ok hD hsrt hpk (k + 2) h (by omega) P m δ side hP h2 hn hC)
        ?_ _ P m δ side (by omega) hP h2 hn hC
      intro S m δ side hS _ hn hC
      refine slab_of_closest hD (k := k + 1) (fun S h1 => ?_) (fun S m δ side hS h2 hn hC => ?_) S m δ side hS hn hC _
      · rw [parallel_small (by omega), serial_small (by omega)]; exact brute_single h1
      · exact ih (by omega) (by omega) S m δ side hS h2 hn hC

/-! ### Strict and lenient runs -/

/-- The strict run has undefined behaviour or equals the lenient one. -/
def Refines (a b : Except Err (PP α)) : Prop := a = .error .ub ∨ a = b

theorem level_refines {srt : Fin d → List α → List α} {base : ℕ} {small small' slabSolve slabSolve' : List α → Except Err (PP α)}
    {k : Fin d} (h1 : ∀ P, Refines (small P) (small' P)) (h2 : ∀ P, Refines (slabSolve P) (slabSolve' P)) :
    ∀ fuel P, Refines (level dist pos srt base small slabSolve k fuel P)
      (level dist pos srt base small' slabSolve' k fuel P) := by
  intro fuel
  induction fuel with
  | zero => exact fun P => Or.inr rfl
  | succ fuel ih =>
    intro P
    rw [level, level]
    by_cases hb : P.length < base
    · rw [if_pos hb, if_pos hb]; exact h1 P
    rw [if_neg hb, if_neg hb]
    dsimp only
    cases hc : (srt k P)[P.length / 2]? with
    | none => exact Or.inr rfl
    | some c =>
      dsimp only
      rcases ih ((srt k P).take (P.length / 2)) with h | h
      · rw [h]; exact Or.inl rfl
      rw [h]
      cases level dist pos srt base small' slabSolve' k fuel ((srt k P).take (P.length / 2)) with
      | error e => exact Or.inr rfl
      | ok Lr =>
        simp only [Except.bind]
        rcases ih ((srt k P).drop (P.length / 2)) with h | h
        · rw [h]; exact Or.inl rfl
        rw [h]
        cases level dist pos srt base small' slabSolve' k fuel ((srt k P).drop (P.length / 2)) with
        | error e => exact Or.inr rfl
        | ok Rr =>
          dsimp only
          split
          · exact Or.inr rfl
          · split
            · exact Or.inr rfl
            · rename_i b _ _
              rcases h2 ((srt k P).filter (inSlab pos k (pos c k) (dist (pos b.1) (pos b.2)))) with h | h
              · rw [h]; exact Or.inl rfl
              · rw [h]; exact Or.inr rfl

theorem brute_refines (P : List α) : Refines (brute dist pos true P) (brute dist pos false P) := by
  unfold brute
  by_cases h : P.length < 2
  · left; simp [h]
  · right; simp [h]

theorem serial_refines {srt : Fin d → List α → List α} : ∀ (k : ℕ) (h : k < d) (P : List α),
    Refines (serial dist pos true srt k h P) (serial dist pos false srt k h P) := by
  intro k
  induction k with
  | zero =>
    intro h P
    rw [serial, serial]
    exact level_refines brute_refines (fun _ => Or.inr rfl) _ P
  | succ k ih =>
    intro h P
    match k, ih with
    | 0, _ =>
      rw [serial, serial]
      exact level_refines brute_refines (fun _ => Or.inr rfl) _ P
    | k + 1, ih =>
      rw [serial, serial]
      exact level_refines brute_refines (fun P => ih (by omega) P) _ P

theorem parallel_refines {srt : Fin d → List α → List α} : ∀ (k : ℕ) (h : k < d) (P : List α),
    Refines (parallel dist pos true srt k h P) (parallel dist pos false srt k h P) := by
  intro k
  induction k with
  | zero =>
    intro h P
    rw [parallel, parallel]
    exact level_refines (fun P => serial_refines 0 h P) (fun _ => Or.inr rfl) _ P
  | succ k ih =>
    intro h P
    match k, ih with
    | 0, _ =>
      rw [parallel, parallel]
      refine level_refines (fun P => serial_refines 1 h P) (fun S => ?_) _ P
      unfold slabScanPar
      by_cases hS : 100 < S.length
      · left; simp [hS]
      · right; simp [hS]
    | k + 1, ih =>
      rw [parallel, parallel]
      exact level_refines (fun P => serial_refines (k + 2) h P) (fun P => ih (by omega) P) _ P

end

end Verif.ClosestPair
