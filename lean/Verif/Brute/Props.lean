import Verif.Brute.Model
import Verif.LogTree.BufLemmas
import Verif.BatchKd.KnnProps
import Mathlib.Algebra.Order.Field.Rat
import Mathlib.Tactic.Linarith
import Mathlib.Tactic.NormNum

set_option linter.unusedSectionVars false
set_option linter.unusedVariables false

/-!
Property C81: the brute-force routines.
-/

namespace Verif.Brute

open Verif BatchKd
open Verif.KnnBuf (KSmallest)

variable {α K : Type} {d : ℕ}

/-! ### `bruteforceOrthRange` -/

/-- Invariant of every schedule. -/
structure PInv (ok : ℕ → Bool) (s : PushState) : Prop where
  good : ∀ j i, s.cell j = some i → ok i = true
  once : ∀ a b i, s.cell a = some i → s.cell b = some i → a = b
  filled : ∀ j, j < s.size → s.cell j ≠ none
  fresh : ∀ i, s.phase i = .test ∨ s.phase i = .read ∨ (∃ n, s.phase i = .write n) → ∀ j, s.cell j ≠ some i
  isOk : ∀ i, s.phase i = .read ∨ (∃ n, s.phase i = .write n) → ok i = true
  write : ∀ i n, s.phase i = .write n → ∀ j, j < n → s.cell j ≠ none
  bump : ∀ i n, s.phase i = .bump n → ∀ j, j ≤ n → s.cell j ≠ none

theorem PInv.init (ok : ℕ → Bool) : PInv ok .init := by
  constructor <;> simp [PushState.init]

theorem PInv.step {ok : ℕ → Bool} {s : PushState} (h : PInv ok s) (t : ℕ) : PInv ok (pushStep ok s t) := by
  unfold pushStep
  split
  · rename_i hp
    refine ⟨h.good, h.once, h.filled, ?_, ?_, ?_, ?_⟩
    · intro i hi
      by_cases hit : i = t
      · subst hit
        exact h.fresh i (.inl hp)
      · simp only [Function.update_of_ne hit] at hi
        exact h.fresh i hi
    · intro i hi
      by_cases hit : i = t
      · subst hit
        simp only [Function.update_self] at hi
        by_cases ho : ok i = true
        · exact ho
        · rw [if_neg ho] at hi
          simp at hi
      · simp only [Function.update_of_ne hit] at hi
        exact h.isOk i hi
    · intro i n hi
      by_cases hit : i = t
      · subst hit
        simp only [Function.update_self] at hi
        split at hi <;> simp at hi
      · simp only [Function.update_of_ne hit] at hi
        exact h.write i n hi
    · intro i n hi
      by_cases hit : i = t
      · subst hit
        simp only [Function.update_self] at hi
        split at hi <;> simp at hi
      · simp only [Function.update_of_ne hit] at hi
        exact h.bump i n hi
  · rename_i hp
    refine ⟨h.good, h.once, h.filled, ?_, ?_, ?_, ?_⟩
    · intro i hi
      by_cases hit : i = t
      · subst hit
        exact h.fresh i (.inr (.inl hp))
      · simp only [Function.update_of_ne hit] at hi
        exact h.fresh i hi
    · intro i hi
      by_cases hit : i = t
      · subst hit
        exact h.isOk i (.inl hp)
      · simp only [Function.update_of_ne hit] at hi
        exact h.isOk i hi
    · intro i n hi
      by_cases hit : i = t
      · subst hit
        simp only [Function.update_self, Phase.write.injEq] at hi
        subst hi
        exact h.filled
      · simp only [Function.update_of_ne hit] at hi
        exact h.write i n hi
    · intro i n hi
      by_cases hit : i = t
      · subst hit
        simp at hi
      · simp only [Function.update_of_ne hit] at hi
        exact h.bump i n hi
  · rename_i n hp
    have hf := h.fresh t (.inr (.inr ⟨n, hp⟩))
    have keep : ∀ j, s.cell j ≠ none → Function.update s.cell n (some t) j ≠ none := by
      intro j hj
      by_cases hjn : j = n
      · subst hjn; simp
      · rw [Function.update_of_ne hjn]; exact hj
    refine ⟨?_, ?_, ?_, ?_, ?_, ?_, ?_⟩
    · intro j i hj
      by_cases hjn : j = n
      · subst hjn
        simp only [Function.update_self, Option.some.injEq] at hj
        subst hj
        exact h.isOk t (.inr ⟨_, hp⟩)
      · simp only [Function.update_of_ne hjn] at hj
        exact h.good j i hj
    · intro a b i ha hb
      by_cases han : a = n <;> by_cases hbn : b = n
      · rw [han, hbn]
      · subst han
        simp only [Function.update_self, Option.some.injEq, Function.update_of_ne hbn] at ha hb
        subst ha
        exact absurd hb (hf b)
      · subst hbn
        simp only [Function.update_self, Option.some.injEq, Function.update_of_ne han] at ha hb
        subst hb
        exact absurd ha (hf a)
      · simp only [Function.update_of_ne han, Function.update_of_ne hbn] at ha hb
        exact h.once a b i ha hb
    · exact fun j hj => keep j (h.filled j hj)
    · intro i hi j
      have hit : i ≠ t := by
        rintro rfl
        simp at hi
      simp only [Function.update_of_ne hit] at hi
      by_cases hjn : j = n
      · subst hjn
        simp only [Function.update_self, ne_eq, Option.some.injEq]
        exact fun hh => hit hh.symm
      · simp only [Function.update_of_ne hjn]
        exact h.fresh i hi j
    · intro i hi
      have hit : i ≠ t := by
        rintro rfl
        simp at hi
      simp only [Function.update_of_ne hit] at hi
      exact h.isOk i hi
    · intro i m hi j hj
      have hit : i ≠ t := by
        rintro rfl
        simp at hi
      simp only [Function.update_of_ne hit] at hi
      exact keep j (h.write i m hi j hj)
    · intro i m hi j hj
      by_cases hit : i = t
      · subst hit
        simp only [Function.update_self, Phase.bump.injEq] at hi
        subst hi
        by_cases hjn : j = n
        · subst hjn; simp
        · exact keep j (h.write i n hp j (by omega))
      · simp only [Function.update_of_ne hit] at hi
        exact keep j (h.bump i m hi j hj)
  · rename_i n hp
    refine ⟨h.good, h.once, fun j hj => h.bump t n hp j (Nat.lt_succ_iff.1 hj), ?_, ?_, ?_, ?_⟩
    · intro i hi
      have hit : i ≠ t := by
        rintro rfl
        simp at hi
      simp only [Function.update_of_ne hit] at hi
      exact h.fresh i hi
    · intro i hi
      have hit : i ≠ t := by
        rintro rfl
        simp at hi
      simp only [Function.update_of_ne hit] at hi
      exact h.isOk i hi
    · intro i m hi
      have hit : i ≠ t := by
        rintro rfl
        simp at hi
      simp only [Function.update_of_ne hit] at hi
      exact h.write i m hi
    · intro i m hi
      have hit : i ≠ t := by
        rintro rfl
        simp at hi
      simp only [Function.update_of_ne hit] at hi
      exact h.bump i m hi
  · exact h

theorem PInv.run {ok : ℕ → Bool} (sched : List ℕ) {s : PushState} (h : PInv ok s) : PInv ok (pushRun ok s sched) := by
  induction sched generalizing s with
  | nil => exact h
  | cons t ts ih => exact ih (h.step t)

/-- One iteration after the other. -/
theorem pushRun_serial {ok : ℕ → Bool} : ∀ (l : List ℕ) (s : PushState) (out : List ℕ), l.Nodup →
    (∀ t ∈ l, s.phase t = .test) → s.out = out.map some →
    (pushRun ok s (l.flatMap fun t => [t, t, t, t])).out = (out ++ l.filter ok).map some
  | [], s, out, _, _, h => by simpa [pushRun] using h
  | t :: l, s, out, hnd, hp, h => by
    rw [List.flatMap_cons, pushRun, List.foldl_append]
    rw [List.nodup_cons] at hnd
    have ht := hp t (by simp)
    have hne : ∀ x ∈ l, x ≠ t := fun x hx hxt => hnd.1 (hxt ▸ hx)
    by_cases ho : ok t = true
    · have e : [t, t, t, t].foldl (pushStep ok) s =
          { cell := Function.update s.cell s.size (some t), size := s.size + 1,
            phase := Function.update (Function.update (Function.update (Function.update s.phase t .read) t (.write s.size)) t
              (.bump s.size)) t .done } := by
        simp [pushStep, ht, ho]
      rw [e]
      have := pushRun_serial (ok := ok) l ⟨Function.update s.cell s.size (some t), s.size + 1,
        Function.update (Function.update (Function.update (Function.update s.phase t .read) t (.write s.size)) t
          (.bump s.size)) t .done⟩ (out ++ [t]) hnd.2
        (fun x hx => by simp only [Function.update_of_ne (hne x hx)]; exact hp x (by simp [hx])) ?_
      · rw [List.filter_cons_of_pos ho]
        simpa [pushRun] using this
      · unfold PushState.out at h ⊢
        dsimp only
        rw [List.range_succ, List.map_append, List.map_append, ← h]
        congr 1
        · apply List.map_congr_left
          intro j hj
          rw [Function.update_of_ne (by simp at hj; omega)]
        · simp
    · have e : [t, t, t, t].foldl (pushStep ok) s = { s with phase := Function.update s.phase t .done } := by
        simp [pushStep, ht, ho]
      rw [e]
      have := pushRun_serial (ok := ok) l { s with phase := Function.update s.phase t .done } out hnd.2
        (fun x hx => by simp only [Function.update_of_ne (hne x hx)]; exact hp x (by simp [hx])) h
      rw [List.filter_cons_of_neg ho]
      exact this

section
variable [Field K] [LinearOrder K] [IsStrictOrderedRing K]

/-- Specification: point `i` of the array is in the cube with centre `q` and half side `h`. -/
def InCube (A : List (Point K d)) (q : Point K d) (h : K) (i : ℕ) : Prop :=
  ∃ p, A[i]? = some p ∧ ∀ c, q c - h ≤ p c ∧ p c ≤ q c + h

theorem any_inRange (A : List (Point K d)) (q : Point K d) (h : K) (i : ℕ) :
    (A[i]?).any (inRange q h) = true ↔ InCube A q h i := by
  unfold InCube
  cases hA : A[i]? with
  | none => simp
  | some p =>
    simp only [Option.any_some, Option.some.injEq, exists_eq_left']
    unfold inRange
    rw [decide_eq_true_iff]
    unfold KdTree.queryBox
    apply forall_congr'
    intro c
    rw [not_or, not_lt, not_lt, and_comm]
    dsimp only
    have : q c - h + h * 2 = q c + h := by ring
    rw [this]

/-- **C81, box search, what holds.** Under every schedule of the accesses, at every moment, the vector holds only indices of
points in the cube, and none twice. -/
theorem c81_orthRange_sound (A : List (Point K d)) (q : Point K d) (h : K) (sched : List ℕ) :
    (∀ e ∈ (orthRange A q h sched).out, ∃ i, e = some i ∧ InCube A q h i) ∧ (orthRange A q h sched).out.Nodup := by
  have hI := (PInv.init fun t => (A[t]?).any (inRange q h)).run sched
  constructor
  · intro e he
    obtain ⟨j, hj, rfl⟩ := List.mem_map.1 he
    rw [List.mem_range] at hj
    cases hc : (orthRange A q h sched).cell j with
    | none => exact absurd hc (hI.filled j hj)
    | some i => exact ⟨i, rfl, (any_inRange A q h i).1 (hI.good j i hc)⟩
  · unfold PushState.out
    apply (List.nodup_map_iff_inj_on List.nodup_range).2
    intro a ha b hb hab
    rw [List.mem_range] at ha
    cases hc : (orthRange A q h sched).cell a with
    | none => exact absurd hc (hI.filled a ha)
    | some i => exact hI.once a b i hc (hab ▸ hc)

/-- **C81, box search, iterations one after the other.** If the iterations do not overlap, in whatever order, exactly the
indices of the points in the cube are returned. -/
theorem c81_orthRange_partial (A : List (Point K d)) (q : Point K d) (h : K) {l : List ℕ}
    (hl : l.Perm (List.range A.length)) :
    ∃ r : List ℕ, (orthRange A q h (l.flatMap fun t => [t, t, t, t])).out = r.map some ∧ r.Nodup ∧
      ∀ i, i ∈ r ↔ InCube A q h i := by
  refine ⟨l.filter fun t => (A[t]?).any (inRange q h), ?_, (hl.nodup_iff.2 List.nodup_range).filter _, ?_⟩
  · have := pushRun_serial (ok := fun t => (A[t]?).any (inRange q h)) l .init [] (hl.nodup_iff.2 List.nodup_range)
      (fun t _ => rfl) rfl
    simpa [orthRange] using this
  · intro i
    rw [List.mem_filter, any_inRange]
    constructor
    · exact fun hh => hh.2
    · intro hh
      refine ⟨hl.mem_iff.2 ?_, hh⟩
      obtain ⟨p, hp, -⟩ := hh
      rw [List.mem_range]
      by_contra hc
      rw [List.getElem?_eq_none (by omega)] at hp
      exact absurd hp (by simp)

end

/-- **C81 is false of the code: box search.** Two points, both in the cube, two iterations that overlap: both run to their
ends and only one index is in the vector. -/
theorem c81_orthRange_false :
    let A : List (Point ℚ 2) := [![0, 0], ![1, 1]]
    let s := orthRange A ![0, 0] 1 [0, 1, 0, 1, 0, 1, 0, 1]
    s.phase 0 = .done ∧ s.phase 1 = .done ∧ s.out = [some 1] ∧ InCube A ![0, 0] 1 0 ∧ InCube A ![0, 0] 1 1 := by
  have h0 : inRange (![0, 0] : Point ℚ 2) 1 ![0, 0] = true := by
    have := any_inRange [(![0, 0] : Point ℚ 2)] ![0, 0] 1 0
    simp only [List.getElem?_cons_zero, Option.any_some] at this
    exact this.2 ⟨_, rfl, by intro c; fin_cases c <;> simp⟩
  have h1 : inRange (![0, 0] : Point ℚ 2) 1 ![1, 1] = true := by
    have := any_inRange [(![1, 1] : Point ℚ 2)] ![0, 0] 1 0
    simp only [List.getElem?_cons_zero, Option.any_some] at this
    exact this.2 ⟨_, rfl, by intro c; fin_cases c <;> simp⟩
  refine ⟨?_, ?_, ?_, ?_, ?_⟩
  · simp [orthRange, pushRun, pushStep, PushState.init, h0, h1]
  · simp [orthRange, pushRun, pushStep, PushState.init, h0, h1]
  · simp [orthRange, pushRun, pushStep, PushState.init, h0, h1, PushState.out]
  · exact ⟨_, rfl, by intro c; fin_cases c <;> simp⟩
  · exact ⟨_, rfl, by intro c; fin_cases c <;> simp⟩

/-! ### `bruteforceKnn` -/

section
variable [Field K] [LinearOrder K] [IsStrictOrderedRing K] {nth : ℕ → List (K × α) → List (K × α)}
  {dist : Point K d → Point K d → K} {pos : α → Point K d}

/-- **C81, nearest neighbours.** For `1 ≤ k ≤ n` the brute-force search returns for every point `k` nearest points of all
(the point itself among them, in case of ties any); for `k > n` it throws. -/
theorem c81_bruteforceKnn (hn : NthPairs nth) (items : List α) {k : ℕ} (hk : 1 ≤ k) :
    (k ≤ items.length → ∃ rows, bruteforceKnn nth dist pos items k = .ok rows ∧
      List.Forall₂ (fun x row => KSmallest (fun y => dist (pos x) (pos y)) k items row) items rows) ∧
    (items.length < k → items ≠ [] → bruteforceKnn nth dist pos items k = .error .throws) := by
  have key : ∀ q : Point K d, ∃ b, addItems nth dist pos q none items (BBuf.new k) = .ok b ∧
      NBInv k (items.map fun x => (dist q (pos x), x)) b := by
    intro q
    obtain ⟨b, h1, h2, -⟩ := LogTree.Arr.addAll_ok (pos := pos) (dist := dist) hn q items [] (BBuf.new k)
      (by simpa using NBInv.new hk) (by simp [BBuf.new])
    exact ⟨b, h1, by simpa using h2⟩
  constructor
  · intro hlen
    apply mapM_forall₂ items
    intro x _
    obtain ⟨b, h1, h2⟩ := key (pos x)
    have hb : BHolds k (fun y => dist (pos x) (pos y)) items b := h2
    obtain ⟨b2, r, h7, -, -, keep, h8, h9⟩ := hb.keepK hn hlen
    refine ⟨keep, ?_, h9⟩
    unfold knnRow
    rw [h1]
    simp only [Except.bind]
    rw [h7]
    simp only [Except.map, h8]
    rw [List.take_of_length_le (by rw [List.length_map, h9.1]), List.map_map]
    exact congrArg Except.ok (by simp [Function.comp_def])
  · intro hlen hne
    cases items with
    | nil => exact absurd rfl hne
    | cons x items =>
      obtain ⟨b, h1, h2⟩ := key (pos x)
      have hlt : b.elems.length < k := by
        by_contra hc
        have := h2.len_iff.1 (by omega)
        rw [List.length_map] at this
        omega
      have hkk : b.k = k := h2.hk
      unfold bruteforceKnn
      rw [List.mapM_cons]
      have : knnRow nth dist pos (x :: items) k (pos x) = .error .throws := by
        unfold knnRow
        rw [h1]
        simp only [Except.bind]
        unfold BBuf.keepK
        rw [if_pos (by rw [hkk]; exact hlt)]
        rfl
      rw [this]
      rfl

end

/-- An `nth_element` that sorts meets the contract, so the hypotheses of `c81_bruteforceKnn` can be met: the two nearest of
three points. -/
example (nth : ℕ → List (ℚ × Fin 3) → List (ℚ × Fin 3)) (hn : NthPairs nth) :
    ∃ rows, bruteforceKnn nth (fun p q => |p 0 - q 0|) (fun i : Fin 3 => (fun _ => (i.1 : ℚ) : Point ℚ 1))
      (List.finRange 3) 2 = .ok rows ∧ rows.length = 3 := by
  obtain ⟨rows, h1, h2⟩ := (c81_bruteforceKnn (dist := fun p q : Point ℚ 1 => |p 0 - q 0|)
    (pos := fun i : Fin 3 => (fun _ => (i.1 : ℚ) : Point ℚ 1)) hn (List.finRange 3) (k := 2) (by omega)).1 (by simp)
  exact ⟨rows, h1, by rw [← h2.length_eq]; simp⟩

/-! ### `bruteForceParallel` -/

theorem mem_allPairs {dist : Point K d → Point K d → K} {P : List (Point K d)} {r : Pair K} :
    r ∈ allPairs dist P ↔ r.u < P.length ∧ r.v < P.length ∧ r.dist = entryDist dist P r.u r.v := by
  unfold allPairs
  rw [List.mem_flatMap]
  constructor
  · rintro ⟨j, hj, hr⟩
    obtain ⟨i, hi, rfl⟩ := List.mem_map.1 hr
    rw [List.mem_range] at hi hj
    exact ⟨hi, hj, rfl⟩
  · rintro ⟨h1, h2, h3⟩
    refine ⟨r.v, List.mem_range.2 h2, List.mem_map.2 ⟨r.u, List.mem_range.2 h1, ?_⟩⟩
    rw [← h3]

/-- **C81, closest pair.** For at least two points (repeated ones included) the parallel brute-force search returns two points
at different positions, with their distance, and no two points at different positions are closer. For an empty array it
dereferences the end. -/
theorem c81_bruteForceParallel [LinearOrder K] {pick : List (Pair K) → Option (Pair K)} (hp : PickMin pick)
    (dist : Point K d → Point K d → K) (P : List (Point K d)) :
    (2 ≤ P.length → ∃ r, bruteForceParallel pick dist P = .ok r ∧ r.u ≠ r.v ∧
      ∃ p q : Point K d, P[r.u]? = some p ∧ P[r.v]? = some q ∧ r.dist = dist p q ∧
        ∀ (i j : ℕ) (p' q' : Point K d), i ≠ j → P[i]? = some p' → P[j]? = some q' → dist p q ≤ dist p' q') ∧
    (P = [] → bruteForceParallel pick dist P = .error .ub) := by
  constructor
  · intro h2
    have hpair : ∀ (i j : ℕ) (p' q' : Point K d), i ≠ j → P[i]? = some p' → P[j]? = some q' →
        (⟨i, j, (dist p' q' : WithTop K)⟩ : Pair K) ∈ allPairs dist P := by
      intro i j p' q' hij hi hj
      rw [mem_allPairs]
      refine ⟨?_, ?_, ?_⟩
      · by_contra hc
        rw [List.getElem?_eq_none (by simpa using hc)] at hi
        exact absurd hi (by simp)
      · by_contra hc
        rw [List.getElem?_eq_none (by simpa using hc)] at hj
        exact absurd hj (by simp)
      · simp only [entryDist, if_neg hij, hi, hj]
    have h01 := hpair 0 1 (P[0]) (P[1]) (by omega) (List.getElem?_eq_getElem _) (List.getElem?_eq_getElem _)
    obtain ⟨r, e1, e2, e3⟩ := (hp (allPairs dist P)).2 (List.ne_nil_of_mem h01)
    have hr := e2
    rw [mem_allPairs] at hr
    obtain ⟨hu, hv, hd⟩ := hr
    have hfin : r.dist ≠ ⊤ := by
      intro htop
      have := e3 _ h01
      rw [htop] at this
      exact absurd this (not_le.2 (WithTop.coe_lt_top _))
    have huv : r.u ≠ r.v := by
      intro huv
      unfold entryDist at hd
      rw [if_pos huv] at hd
      exact hfin hd
    unfold entryDist at hd
    rw [if_neg huv, List.getElem?_eq_getElem hu, List.getElem?_eq_getElem hv] at hd
    dsimp only at hd
    refine ⟨r, ?_, huv, P[r.u], P[r.v], List.getElem?_eq_getElem hu, List.getElem?_eq_getElem hv, hd, ?_⟩
    · unfold bruteForceParallel
      rw [e1]
    · intro i j p' q' hij hi hj
      have := e3 _ (hpair i j p' q' hij hi hj)
      rw [hd] at this
      exact WithTop.coe_le_coe.1 this
  · rintro rfl
    unfold bruteForceParallel
    rw [(hp _).1 (by simp [allPairs])]

/-- With a single point the search returns that point twice and the largest double. -/
theorem c81_single [LinearOrder K] {pick : List (Pair K) → Option (Pair K)} (hp : PickMin pick)
    (dist : Point K d → Point K d → K) (p : Point K d) :
    bruteForceParallel pick dist [p] = .ok ⟨0, 0, ⊤⟩ := by
  have : allPairs dist [p] = [⟨0, 0, ⊤⟩] := by simp [allPairs, entryDist]
  obtain ⟨r, e1, e2, -⟩ := (hp [⟨0, 0, ⊤⟩]).2 (by simp)
  unfold bruteForceParallel
  rw [this, e1]
  rw [List.mem_singleton] at e2
  rw [e2]

/-- A `min_element` that takes the first smallest element. -/
def firstMin : List (Pair ℚ) → Option (Pair ℚ)
  | [] => none
  | x :: l => match firstMin l with
    | none => some x
    | some y => if y.dist < x.dist then some y else some x

theorem firstMin_ok : PickMin firstMin := by
  intro l
  refine ⟨fun h => by rw [h]; rfl, ?_⟩
  induction l with
  | nil => exact fun h => absurd rfl h
  | cons x l ih =>
    intro _
    by_cases hl : l = []
    · subst hl
      exact ⟨x, rfl, by simp, by simp⟩
    · obtain ⟨r, h1, h2, h3⟩ := ih hl
      unfold firstMin
      rw [h1]
      dsimp only
      split
      · rename_i hlt
        refine ⟨r, rfl, by simp [h2], ?_⟩
        intro y hy
        rcases List.mem_cons.1 hy with rfl | hy
        · exact hlt.le
        · exact h3 y hy
      · rename_i hge
        refine ⟨x, rfl, by simp, ?_⟩
        intro y hy
        rcases List.mem_cons.1 hy with rfl | hy
        · exact le_refl _
        · exact (not_lt.1 hge).trans (h3 y hy)

/-- The contract of `min_element` can be met. -/
example : ∃ r, bruteForceParallel firstMin (fun p q : Point ℚ 1 => |p 0 - q 0|) [![0], ![5], ![4], ![9]] = .ok r ∧ r.u ≠ r.v := by
  obtain ⟨r, h1, h2, -⟩ := (c81_bruteForceParallel firstMin_ok (fun p q : Point ℚ 1 => |p 0 - q 0|)
    [![0], ![5], ![4], ![9]]).1 (by simp)
  exact ⟨r, h1, h2⟩

end Verif.Brute
