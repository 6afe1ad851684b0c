import Verif.Reserve.Lemmas
import Mathlib.Algebra.BigOperators.Ring.Finset
import Mathlib.Data.Nat.ModEq

set_option linter.unusedSectionVars false
set_option linter.unusedVariables false

/-!
C40: reservation rounds.
-/

namespace Verif.Reserve

variable {V : Type} [LinearOrder V]

/-! ### Specification -/

/-- Contender `t` beats all others it shares a cell with. -/
def Beats (cs : List (Contender V)) (t : ℕ) : Prop :=
  ∀ (k k' : Contender V) (t' : ℕ), cs[t]? = some k → cs[t']? = some k' → t' ≠ t →
    (∃ c, c ∈ k.cells ∧ c ∈ k'.cells) → k'.id < k.id

/-- Ids are different from each other and above the neutral value. -/
structure GoodIds (neutral : V) (cs : List (Contender V)) : Prop where
  inj : ∀ (t t' : ℕ) (k k' : Contender V), cs[t]? = some k → cs[t']? = some k' → k.id = k'.id → t = t'
  pos : ∀ k ∈ cs, neutral < k.id

/-- All threads are through the check phase. -/
def CDone (cs : List (Contender V)) (s : CState V) : Prop := ∀ t < cs.length, won cs s t ≠ none

/-! ### Consequences of a finished reserve phase -/

theorem owns_iff {neutral : V} {cs : List (Contender V)} (hid : GoodIds neutral cs) {w : ℕ → V}
    (hr : Reserved neutral cs w) {t : ℕ} {k : Contender V} (hk : cs[t]? = some k) :
    (∀ c ∈ k.cells, w c = k.id) ↔ Beats cs t := by
  have hkm : k ∈ cs := List.mem_of_getElem? hk
  constructor
  · intro h k1 k' t' hk1 hk' hne ⟨c, hc, hc'⟩
    rw [hk] at hk1
    simp only [Option.some.injEq] at hk1
    subst hk1
    have h1 := hr.max k' (List.mem_of_getElem? hk') c hc'
    rw [h c hc] at h1
    exact lt_of_le_of_ne h1 fun he => hne (hid.inj t' t k' k hk' hk he)
  · intro h c hc
    have h1 := hr.max k hkm c hc
    rcases hr.src c with h2 | ⟨k', hk'm, hc', h2⟩
    · rw [h2] at h1
      exact absurd (hid.pos k hkm) (not_lt.mpr h1)
    · obtain ⟨t', hk'⟩ := List.mem_iff_getElem?.mp hk'm
      by_cases hne : t' = t
      · subst hne
        rw [hk] at hk'
        simp only [Option.some.injEq] at hk'
        subst hk'
        exact h2
      · have := h k k' t' hk hk' hne ⟨c, hc, hc'⟩
        rw [h2] at h1
        exact absurd this (not_lt.mpr h1)

theorem won_eq {cs : List (Contender V)} {s : CState V} {t : ℕ} {k : Contender V} (hk : cs[t]? = some k)
    (h : won cs s t ≠ none) : ∃ fl, s.pc t = .test k.cells.length fl ∧ won cs s t = some (!fl) := by
  unfold won at h ⊢
  rw [hk] at h ⊢
  cases hp : s.pc t with
  | test i fl =>
    simp only [hp] at h
    by_cases hi : i = k.cells.length
    · subst hi
      exact ⟨fl, rfl, by simp⟩
    · simp [hi] at h
  | reset i fl => simp [hp] at h

/-! ### C40 -/

/-- C40. Reserve phase: for every interleaving of the priority writes, once all threads are through each cell holds
the greatest id of its contenders, or the neutral value if it has none. -/
theorem c40_reserve (neutral : V) (cs : List (Contender V)) (sched : List ℕ)
    (hd : ∀ t, rdone cs (reserve neutral cs sched) t) (c : ℕ) :
    let w := (reserve neutral cs sched).mem c
    (w = neutral ∨ ∃ k ∈ cs, c ∈ k.cells ∧ w = k.id) ∧ ∀ k ∈ cs, c ∈ k.cells → k.id ≤ w :=
  ⟨(reserve_reserved hd).src c, fun k hk hc => (reserve_reserved hd).max k hk c hc⟩

/-- C40. The reserve phase ends: along every interleaving the threads that are not through make at most
`2 Σ |cells| + 2 T² M` memory accesses together, for `T` threads and `M` cells. -/
theorem c40_reserve_terminates (neutral : V) (cs : List (Contender V)) {M : ℕ}
    (hM : ∀ k ∈ cs, ∀ c ∈ k.cells, c < M) (sched : List ℕ) :
    rwork cs ⟨fun _ => neutral, fun _ => .load 0⟩ sched ≤
      2 * (∑ t ∈ Finset.range cs.length, ((cs[t]?.map fun k => k.cells.length).getD 0)) +
        2 * cs.length * (M * cs.length) := by
  refine (rwork_le hM sched _ (rinv_start neutral cs)).trans ?_
  apply Nat.add_le_add
  · unfold thrs
    rw [Finset.mul_sum]
    apply Finset.sum_le_sum
    intro t _
    cases cs[t]? <;> simp [thr]
  · apply Nat.mul_le_mul_left
    unfold cellPot
    calc ∑ c ∈ Finset.range M, above cs neutral ≤ ∑ c ∈ Finset.range M, cs.length :=
          Finset.sum_le_sum fun c _ => List.countP_le_length
      _ = M * cs.length := by simp

/-- C40. Check phase with immediate reset (Delaunay triangulation, planar incremental hull), if no contender lists a
cell twice: for every interleaving of both phases, a contender wins iff it beats all others it shares a cell with. -/
theorem c40_wins_iff {neutral : V} {cs : List (Contender V)} (hid : GoodIds neutral cs)
    (hnd : ∀ k ∈ cs, k.cells.Nodup) {s1 s2 : List ℕ} (hd : ∀ t, rdone cs (reserve neutral cs s1) t)
    (hd2 : CDone cs (check neutral cs (reserve neutral cs s1).mem s2)) {t : ℕ} (ht : t < cs.length) :
    ∃ r, won cs (check neutral cs (reserve neutral cs s1).mem s2) t = some r ∧ (r = true ↔ Beats cs t) := by
  have hr := reserve_reserved hd
  have hy : CHyp neutral cs := ⟨hid.inj, fun k hk => (hid.pos k hk).ne', hnd⟩
  have hinv := cinv_run hy s2 _ (cinv_start (neutral := neutral) (cs := cs) (reserve neutral cs s1).mem)
  obtain ⟨k, hk⟩ : ∃ k, cs[t]? = some k := ⟨_, List.getElem?_eq_getElem ht⟩
  obtain ⟨fl, h1, h2⟩ := won_eq hk (hd2 t ht)
  refine ⟨!fl, h2, ?_⟩
  have hf := hinv.flag t k hk
  unfold check at h1
  rw [h1] at hf
  simp only [CPc.flag, CPc.pos] at hf
  rw [← owns_iff hid hr hk]
  constructor
  · intro hfl c hc
    by_contra hne
    obtain ⟨j, hj⟩ := List.mem_iff_getElem?.mp hc
    have := hf.mpr ⟨j, c, (List.getElem?_eq_some_iff.mp hj).1, hj, hne⟩
    rw [this] at hfl
    simp at hfl
  · intro h
    cases hfl : fl with
    | false => rfl
    | true =>
      obtain ⟨j, c, _, h4, h5⟩ := hf.mp hfl
      exact absurd (h c (List.mem_of_getElem? h4)) h5

/-- C40. Two winners never share a cell. -/
theorem c40_winners_disjoint {neutral : V} {cs : List (Contender V)} (hid : GoodIds neutral cs)
    (hnd : ∀ k ∈ cs, k.cells.Nodup) {s1 s2 : List ℕ} (hd : ∀ t, rdone cs (reserve neutral cs s1) t)
    (hd2 : CDone cs (check neutral cs (reserve neutral cs s1).mem s2)) {t t' : ℕ} {k k' : Contender V}
    (hk : cs[t]? = some k) (hk' : cs[t']? = some k') (hne : t ≠ t')
    (hw : won cs (check neutral cs (reserve neutral cs s1).mem s2) t = some true)
    (hw' : won cs (check neutral cs (reserve neutral cs s1).mem s2) t' = some true) (c : ℕ) :
    ¬ (c ∈ k.cells ∧ c ∈ k'.cells) := by
  rintro ⟨hc, hc'⟩
  have ht : t < cs.length := (List.getElem?_eq_some_iff.mp hk).1
  have ht' : t' < cs.length := (List.getElem?_eq_some_iff.mp hk').1
  obtain ⟨r, h1, h2⟩ := c40_wins_iff hid hnd hd hd2 ht
  obtain ⟨r', h1', h2'⟩ := c40_wins_iff hid hnd hd hd2 ht'
  rw [hw] at h1
  rw [hw'] at h1'
  simp only [Option.some.injEq] at h1 h1'
  have a := h2.mp h1.symm k k' t' hk hk' (Ne.symm hne) ⟨c, hc, hc'⟩
  have b := h2'.mp h1'.symm k' k t hk' hk hne ⟨c, hc', hc⟩
  exact absurd a (not_lt.mpr b.le)

/-- C40. The contender with the highest id wins, so that every round has a winner. -/
theorem c40_highest_wins {neutral : V} {cs : List (Contender V)} (hid : GoodIds neutral cs)
    (hnd : ∀ k ∈ cs, k.cells.Nodup) {s1 s2 : List ℕ} (hd : ∀ t, rdone cs (reserve neutral cs s1) t)
    (hd2 : CDone cs (check neutral cs (reserve neutral cs s1).mem s2)) {t : ℕ} {k : Contender V}
    (hk : cs[t]? = some k) (hmax : ∀ k' ∈ cs, k'.id ≤ k.id) :
    won cs (check neutral cs (reserve neutral cs s1).mem s2) t = some true := by
  have ht : t < cs.length := (List.getElem?_eq_some_iff.mp hk).1
  obtain ⟨r, h1, h2⟩ := c40_wins_iff hid hnd hd hd2 ht
  rw [h1]
  congr 1
  apply h2.mpr
  intro k1 k' t' hk1 hk' hne _
  rw [hk] at hk1
  simp only [Option.some.injEq] at hk1
  subst hk1
  exact lt_of_le_of_ne (hmax k' (List.mem_of_getElem? hk')) fun he => hne (hid.inj t' t k' k hk' hk he)

/-- C40. After the check phase every cell is back to the neutral value. -/
theorem c40_cells_reset {neutral : V} {cs : List (Contender V)} (hid : GoodIds neutral cs)
    (hnd : ∀ k ∈ cs, k.cells.Nodup) {s1 s2 : List ℕ} (hd : ∀ t, rdone cs (reserve neutral cs s1) t)
    (hd2 : CDone cs (check neutral cs (reserve neutral cs s1).mem s2)) (c : ℕ) :
    (check neutral cs (reserve neutral cs s1).mem s2).mem c = neutral := by
  have hr := reserve_reserved hd
  have hy : CHyp neutral cs := ⟨hid.inj, fun k hk => (hid.pos k hk).ne', hnd⟩
  have hinv := cinv_run hy s2 _ (cinv_start (neutral := neutral) (cs := cs) (reserve neutral cs s1).mem)
  rcases hinv.mem c with h | h
  · rcases hr.src c with h2 | ⟨k, hkm, hc, h2⟩
    · unfold check
      rw [h, h2]
    · obtain ⟨t, hk⟩ := List.mem_iff_getElem?.mp hkm
      have ht : t < cs.length := (List.getElem?_eq_some_iff.mp hk).1
      obtain ⟨fl, h3, _⟩ := won_eq hk (hd2 t ht)
      obtain ⟨j, hj⟩ := List.mem_iff_getElem?.mp hc
      refine hinv.past t k j c hk ?_ hj h2
      unfold check at h3
      rw [h3]
      exact (List.getElem?_eq_some_iff.mp hj).1
  · exact h

/-- C40. Each thread is through the check phase after at most two accesses per cell. -/
theorem c40_check_terminates (neutral : V) {cs : List (Contender V)} {t : ℕ} {k : Contender V} (hk : cs[t]? = some k)
    (w : ℕ → V) (sched : List ℕ) :
    cwork neutral cs t k ⟨w, fun _ => .test 0 false⟩ sched ≤ 2 * k.cells.length :=
  cwork_le hk sched _

/-- C40, for the check phase without reset followed by a reset phase (three-dimensional hull). `cs` are the
reservations, `chk` the cells checked and reset by each contender, in another order and possibly with repetitions.
A contender is confirmed iff it beats all others, and after all resets, in any order, each cell is neutral. -/
theorem c40_confirm {neutral : V} {cs chk : List (Contender V)} (hid : GoodIds neutral cs)
    (hlen : chk.length = cs.length)
    (hsame : ∀ (t : ℕ) (k k' : Contender V), cs[t]? = some k → chk[t]? = some k' →
      k'.id = k.id ∧ ∀ c, c ∈ k'.cells ↔ c ∈ k.cells)
    {s1 : List ℕ} (hd : ∀ t, rdone cs (reserve neutral cs s1) t) :
    (∀ (t : ℕ) (k' : Contender V), chk[t]? = some k' →
      (confirm k' (reserve neutral cs s1).mem = true ↔ Beats cs t)) ∧
    ∀ order, order.Perm (chk.flatMap fun k' => k'.cells) → ∀ c,
      wipe neutral (reserve neutral cs s1).mem order c = neutral := by
  have hr := reserve_reserved hd
  constructor
  · intro t k' hk'
    have ht : t < cs.length := by
      rw [← hlen]
      exact (List.getElem?_eq_some_iff.mp hk').1
    obtain ⟨k, hk⟩ : ∃ k, cs[t]? = some k := ⟨_, List.getElem?_eq_getElem ht⟩
    obtain ⟨h1, h2⟩ := hsame t k k' hk hk'
    rw [← owns_iff hid hr hk]
    unfold confirm
    rw [List.all_eq_true]
    constructor
    · intro h c hc
      have := h c ((h2 c).mpr hc)
      rw [beq_iff_eq, h1] at this
      exact this
    · intro h c hc
      rw [beq_iff_eq, h1]
      exact h c ((h2 c).mp hc)
  · intro order hperm c
    have gen : ∀ (order : List ℕ) (m : ℕ → V), wipe neutral m order c = if c ∈ order then neutral else m c := by
      intro order
      induction order with
      | nil => intro m; simp [wipe]
      | cons a l ih =>
        intro m
        show wipe neutral (Function.update m a neutral) l c = _
        rw [ih]
        by_cases hl : c ∈ l
        · simp [hl]
        · by_cases ha : c = a
          · subst ha
            simp [hl]
          · simp [hl, ha]
    rw [gen]
    split
    · rfl
    · rename_i hn
      rcases hr.src c with h2 | ⟨k, hkm, hc, _⟩
      · exact h2
      · exfalso
        apply hn
        rw [hperm.mem_iff, List.mem_flatMap]
        obtain ⟨t, hk⟩ := List.mem_iff_getElem?.mp hkm
        have ht : t < chk.length := by
          rw [hlen]
          exact (List.getElem?_eq_some_iff.mp hk).1
        exact ⟨chk[t], List.getElem_mem ht, ((hsame t k _ hk (List.getElem?_eq_getElem ht)).2 c).mpr hc⟩

/-! ### Concrete cases -/

/-- Three contenders; the second shares a cell with both others. -/
def three : List (Contender ℤ) := [⟨4, [0, 1]⟩, ⟨2, [1, 2]⟩, ⟨1, [3]⟩]

theorem three_good : GoodIds (-1) three := by
  refine ⟨?_, by decide⟩
  intro t t' k k' h1 h2 h3
  have ht : t < 3 := (List.getElem?_eq_some_iff.mp h1).1
  have ht' : t' < 3 := (List.getElem?_eq_some_iff.mp h2).1
  have : ∀ t < 3, ∀ t' < 3, (three[t]?.map fun k => k.id) = (three[t']?.map fun k => k.id) → t = t' := by decide
  apply this t ht t' ht'
  rw [h1, h2]
  simp [h3]

/-- An interleaving in which the second contender reserves a cell first, and loses it. -/
def sched3 : List ℕ := [1, 1, 0, 0, 0, 0, 1, 1, 2, 2]

example : ∀ t, rdone three (reserve (-1) three sched3) t := by
  intro t k hk
  have ht : t < 3 := (List.getElem?_eq_some_iff.mp hk).1
  have : ∀ t < 3, (match three[t]?, (reserve (-1) three sched3).pc t with
      | some k, .load i => decide (i = k.cells.length)
      | _, _ => false) = true := by decide
  have := this t ht
  rw [hk] at this
  cases hp : (reserve (-1) three sched3).pc t with
  | load i =>
    rw [hp] at this
    simp only [decide_eq_true_eq] at this
    rw [this]
  | cas i v =>
    rw [hp] at this
    simp at this

example : CDone three (check (-1) three (reserve (-1) three sched3).mem [0, 1, 0, 1, 0, 2, 1, 2, 0, 1]) ∧
    (List.range 3).map (won three (check (-1) three (reserve (-1) three sched3).mem [0, 1, 0, 1, 0, 2, 1, 2, 0, 1])) =
      [some true, some false, some true] := by
  unfold CDone
  decide +kernel

/-- Without the hypothesis that no cell is listed twice, the highest contender can lose. -/
example : won [⟨4, [0, 0]⟩] (check (-1) [⟨4, [0, 0]⟩] (reserve (-1) [(⟨4, [0, 0]⟩ : Contender ℤ)] [0, 0, 0]).mem
    [0, 0, 0]) 0 = some false := by decide

/-- Three-dimensional hull: the smallest address wins, the neutral value is the largest `size_t`. -/
example : GoodIds (OrderDual.toDual (2 ^ 64 - 1 : ℕ)) [⟨OrderDual.toDual 96, [0, 1, 2, 3]⟩, ⟨OrderDual.toDual 32, [3, 4]⟩] := by
  refine ⟨?_, ?_⟩
  · intro t t' k k' h1 h2 h3
    have ht : t < 2 := (List.getElem?_eq_some_iff.mp h1).1
    have ht' : t' < 2 := (List.getElem?_eq_some_iff.mp h2).1
    have e : ∀ t < 2, t = 0 ∨ t = 1 := by omega
    rcases e t ht with rfl | rfl <;> rcases e t' ht' with rfl | rfl
    · rfl
    · simp at h1 h2
      subst h1 h2
      exact absurd h3 (by decide)
    · simp at h1 h2
      subst h1 h2
      exact absurd h3 (by decide)
    · rfl
  · intro k hk
    simp only [List.mem_cons, List.not_mem_nil, or_false] at hk
    rcases hk with rfl | rfl
    · exact OrderDual.toDual_lt_toDual.mpr (by decide)
    · exact OrderDual.toDual_lt_toDual.mpr (by decide)

/-! ### The planar incremental hull -/

theorem ringCells_run (m stop : ℕ) (hm : 0 < m) (d : ℕ) :
    ∀ (fuel p : ℕ), p < m → (p + d + 1) % m = stop → d < fuel → (∀ j < d, (p + j + 1) % m ≠ stop) →
      ringCells m stop fuel p = some ((List.range (d + 1)).map fun j => (p + j) % m) := by
  induction d with
  | zero =>
    intro fuel p hp hs hf _
    obtain ⟨f, rfl⟩ : ∃ f, fuel = f + 1 := ⟨fuel - 1, by omega⟩
    rw [ringCells, if_pos (by simpa using hs)]
    simp [Nat.mod_eq_of_lt hp]
  | succ d ih =>
    intro fuel p hp hs hf hn
    obtain ⟨f, rfl⟩ : ∃ f, fuel = f + 1 := ⟨fuel - 1, by omega⟩
    rw [ringCells, if_neg (by simpa using hn 0 (by omega))]
    have e : ∀ j, ((p + 1) % m + j) % m = (p + (j + 1)) % m := by
      intro j
      rw [Nat.mod_add_mod]
      congr 1
      omega
    have e' : ∀ j, ((p + 1) % m + j + 1) % m = (p + (j + 1) + 1) % m := by
      intro j
      rw [Nat.add_assoc, e]
      congr 1
    rw [ih f ((p + 1) % m) (Nat.mod_lt _ hm) (by rw [e']; exact hs) (by omega) fun j hj => by
      rw [e']
      exact hn (j + 1) (by omega)]
    rw [Option.map_some, List.range_succ_eq_map (n := d + 1), List.map_cons, List.map_map]
    simp only [Nat.add_zero, Nat.mod_eq_of_lt hp, Function.comp_def, Nat.succ_eq_add_one, e]

/-- C40. Planar incremental hull, at least two facets invisible: with `len` visible facets from `start`, the cells are
the facet before, the visible facets and the facet behind, each once. -/
theorem c40_ring_cells {m start len : ℕ} (hs : start < m) (hl : 1 ≤ len) (h2 : len + 2 ≤ m) :
    reservedRing m start ((start + len) % m) =
      some ((List.range (len + 2)).map fun j => (start + m - 1 + j) % m) := by
  unfold reservedRing
  have hmod : ∀ a b c, Nat.ModEq m a b → (a + c) % m = (b + c) % m := fun a b c h => Nat.ModEq.add_right c h
  have e1 : ((start + len) % m + 1) % m = (start + len + 1) % m := Nat.mod_add_mod _ _ _
  have e2 : ∀ j, ((start + m - 1) % m + j + 1) % m = (start + j) % m := by
    intro j
    rw [Nat.add_assoc, Nat.mod_add_mod, show start + m - 1 + (j + 1) = start + j + m by omega, Nat.add_mod_right]
  rw [e1]
  rw [ringCells_run m _ (by omega) (len + 1) (m + 1) _ (Nat.mod_lt _ (by omega)) (by rw [e2]; rfl) (by omega)]
  · congr 1
    apply List.map_congr_left
    intro j _
    rw [Nat.mod_add_mod]
  · intro j hj
    rw [e2]
    intro h
    have h' : Nat.ModEq m (start + j) (start + (len + 1)) := h
    have := Nat.ModEq.add_left_cancel' start h'
    unfold Nat.ModEq at this
    rw [Nat.mod_eq_of_lt (by omega), Nat.mod_eq_of_lt (by omega)] at this
    omega

/-- C40 (false for the planar incremental hull): if only one facet is invisible the walk ends at once, and the point
reserves none of the facets it deletes. In a triangle, two points that each see two facets reserve different single
facets, both win, and both delete facet 2. -/
theorem c40_ring_false : ∃ (c1 c2 d1 d2 : List ℕ),
    reservedRing 3 1 0 = some c1 ∧ deletedRing 3 1 0 = some d1 ∧
    reservedRing 3 2 1 = some c2 ∧ deletedRing 3 2 1 = some d2 ∧
    Beats [⟨5, c1⟩, ⟨3, c2⟩] 0 ∧ Beats [(⟨5, c1⟩ : Contender ℤ), ⟨3, c2⟩] 1 ∧ 2 ∈ d1 ∧ 2 ∈ d2 := by
  refine ⟨[0], [1], [1, 2], [2, 0], by decide, by decide, by decide, by decide, ?_, ?_, by decide, by decide⟩
  · intro k k' t' hk hk' hne ⟨c, h1, h2⟩
    have ht' : t' < 2 := (List.getElem?_eq_some_iff.mp hk').1
    have : t' = 1 := by omega
    subst this
    simp at hk hk'
    subst hk hk'
    simp at h1 h2
    omega
  · intro k k' t' hk hk' hne ⟨c, h1, h2⟩
    have ht' : t' < 2 := (List.getElem?_eq_some_iff.mp hk').1
    have : t' = 0 := by omega
    subst this
    simp at hk hk'
    subst hk hk'
    simp at h1 h2
    omega

end Verif.Reserve
