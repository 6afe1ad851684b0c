import Mathlib.Data.Fin.VecNotation
import Verif.Seb.WelzlLemmas

set_option linter.unusedSectionVars false
set_option linter.unusedVariables false

/-!
Property C36: Welzl's algorithm returns the smallest enclosing ball. The theorems are about exact containment tests; with
the epsilon of the library the returned ball need not contain every point (`c36_eps_false`).
-/

namespace Verif.Seb

variable {K : Type} [Field K] [LinearOrder K] [IsStrictOrderedRing K] {dim : ℕ}

/-- Specification: centre `c` and squared radius `ρ` describe a ball that contains all points, and no ball with a smaller
radius does. -/
def IsSmallestBall (pts : List (Point K dim)) (c : Point K dim) (ρ : K) : Prop :=
  (∀ p ∈ pts, distSqr p c ≤ ρ) ∧ ∀ c' ρ', (∀ p ∈ pts, distSqr p c' ≤ ρ') → ρ ≤ ρ'

theorem Mb.smallest {P pts : List (Point K dim)} {c : Point K dim} {ρ : K} (h : Mb P [] c ρ) (hp : P.Perm pts) :
    IsSmallestBall pts c ρ :=
  ⟨fun p hp' => h.1.1 p (hp.symm.subset hp'),
    fun c' ρ' h' => h.2 c' ρ' ⟨fun p hp' => h' p (hp.subset hp'), by simp⟩⟩

theorem compute_ok (ub : Prop) (V VS : Variant K dim) (hV : PivOK ub V) (hVS : PivOK False VS) (junk : ℕ → K)
    (hd : 2 ≤ dim) (pick : List ℕ → ℕ) (hpick : ∀ L, L ≠ [] → pick L ∈ L) (pts P : List (Point K dim))
    (h2 : 2 ≤ pts.length) (hP : P.Perm pts) :
    (ub ∧ compute V VS 0 junk pick P = .error .ub) ∨
      ∃ B, compute V VS 0 junk pick P = .ok B ∧ IsSmallestBall pts B.center B.r2 ∧ Cert P [] B := by
  unfold compute
  rcases welzlParallel_ok ub V VS hV hVS junk hd pick hpick (P.length + 1) (P.length + 1) P [] (by omega) (by omega)
    (pre_start P (by rw [hP.length_eq]; exact h2)) with ⟨hub, h⟩ | ⟨B, Q, h, _, hmb, hcert⟩
  · rw [h]
    exact Or.inl ⟨hub, rfl⟩
  · rw [h]
    exact Or.inr ⟨B, rfl, hmb.smallest hP, hcert⟩

/-- **C36** (plain Welzl): in dimension two or more, for at least two points in any order `P` the shuffle may produce
(repetitions and degenerate positions allowed), for any winner of the racing writes in the prefix loop, the routine
returns the smallest enclosing ball. Missing: the epsilon of the containment test is zero here. -/
theorem c36_plain_partial (junk : ℕ → K) (hd : 2 ≤ dim) (pick : List ℕ → ℕ) (hpick : ∀ L, L ≠ [] → pick L ∈ L)
    (pts P : List (Point K dim)) (h2 : 2 ≤ pts.length) (hP : P.Perm pts) :
    ∃ B, compute plain plain 0 junk pick P = .ok B ∧ IsSmallestBall pts B.center B.r2 := by
  rcases compute_ok False plain plain (plain_pivOK _) (plain_pivOK _) junk hd pick hpick pts P h2 hP with
    ⟨h, _⟩ | ⟨B, h, hs, _⟩
  · exact h.elim
  · exact ⟨B, h, hs⟩

/-- **C36** (move to front). Missing: the epsilon of the containment test is zero here. -/
theorem c36_mtf_partial (junk : ℕ → K) (hd : 2 ≤ dim) (pick : List ℕ → ℕ) (hpick : ∀ L, L ≠ [] → pick L ∈ L)
    (pts P : List (Point K dim)) (h2 : 2 ≤ pts.length) (hP : P.Perm pts) :
    ∃ B, compute mtf mtf 0 junk pick P = .ok B ∧ IsSmallestBall pts B.center B.r2 := by
  rcases compute_ok False mtf mtf (mtf_pivOK _) (mtf_pivOK _) junk hd pick hpick pts P h2 hP with
    ⟨h, _⟩ | ⟨B, h, hs, _⟩
  · exact h.elim
  · exact ⟨B, h, hs⟩

/-- **C36** (pivoting), below 2000 points, where the serial routine is used. Missing: the epsilon of the containment test
is zero here. -/
theorem c36_pivot_small_partial (mx : List K → ℕ) (junk : ℕ → K) (hd : 2 ≤ dim) (pick : List ℕ → ℕ)
    (pts P : List (Point K dim)) (h2 : 2 ≤ pts.length) (hs : pts.length < 2000) (hP : P.Perm pts) :
    ∃ B, compute (mtfPivotPar mx) mtfPivot 0 junk pick P = .ok B ∧ IsSmallestBall pts B.center B.r2 := by
  unfold compute
  rw [welzlParallel, if_pos (by rw [hP.length_eq]; exact hs)]
  rcases welzlSerial_ok mtfPivot (mtfPivot_pivOK _) junk hd (P.length + 1) P [] (by omega)
    (pre_start P (by rw [hP.length_eq]; exact h2)) with ⟨h, _⟩ | ⟨B, Q, h, _, hmb, _⟩
  · exact h.elim
  · rw [h]
    exact ⟨B, rfl, hmb.smallest hP⟩

/-- **C36** (pivoting), any number of points: unless the search for a pivot runs on an empty slice, the smallest enclosing
ball is returned. `mx` is `parlay::max_element`, which returns a position in a non-empty slice. Missing: see
`c36_pivot_parallel_ub`; and the epsilon of the containment test is zero here. -/
theorem c36_pivot_partial (mx : List K → ℕ) (hmx : ∀ L, L ≠ [] → mx L < L.length) (junk : ℕ → K) (hd : 2 ≤ dim)
    (pick : List ℕ → ℕ) (hpick : ∀ L, L ≠ [] → pick L ∈ L) (pts P : List (Point K dim)) (h2 : 2 ≤ pts.length)
    (hP : P.Perm pts) :
    compute (mtfPivotPar mx) mtfPivot 0 junk pick P = .error .ub ∨
      ∃ B, compute (mtfPivotPar mx) mtfPivot 0 junk pick P = .ok B ∧ IsSmallestBall pts B.center B.r2 := by
  rcases compute_ok True (mtfPivotPar mx) mtfPivot (mtfPivotPar_pivOK mx hmx) (mtfPivot_pivOK _) junk hd pick hpick pts P
    h2 hP with ⟨_, h⟩ | ⟨B, h, hs, _⟩
  · exact Or.inl h
  · exact Or.inr ⟨B, h, hs⟩

theorem serialFrom_last {σ : Type} (process : σ → ℕ → Bool) (c : ℕ → σ → σ) (n : ℕ) (s : σ)
    (h1 : ∀ j < n, process s j = false) (h2 : process s n = true) :
    serialFrom process c (n + 1) 0 s = (c n s, [n]) := by
  rw [serialFrom_add, serialFrom_none process c n 0 s (by simpa using h1)]
  simp [serialFrom, h2]

/-- C36, pivoting with 2000 or more points: when the last point is the first one outside the ball, the search for a pivot
dereferences the end of the array (with any epsilon below the distance of that point, here the one of the library). -/
theorem c36_pivot_parallel_ub (mx : List ℚ → ℕ) (pick : List ℕ → ℕ) : ∃ P : List (Point ℚ 2), P.length = 2000 ∧
    compute (mtfPivotPar mx) mtfPivot (1 / 100000) 0 pick P = .error .ub := by
  refine ⟨List.replicate 1999 0 ++ [![1, 0]], by rw [List.length_append, List.length_replicate]; rfl, ?_⟩
  have hlen : (List.replicate 1999 (0 : Point ℚ 2) ++ [![1, 0]]).length = 2000 := by
    rw [List.length_append, List.length_replicate]
    rfl
  obtain ⟨B, hB⟩ : ∃ B, mkBall (0 : ℕ → ℚ) [(0 : Point ℚ 2), 0] = .ok B := ⟨_, rfl⟩
  have hBp : mkBall (0 : ℕ → ℚ) [(0 : Point ℚ 2), 0] = .ok B ∧ B.sup.length = 2 ∧ B.contain (1 / 100000) 0 = true ∧
      B.contain (1 / 100000) ![1, 0] = false := by
    refine ⟨hB, ?_⟩
    have : mkBall (0 : ℕ → ℚ) [(0 : Point ℚ 2), 0] = .ok B → _ := fun h => Except.ok.inj h
    rw [← this hB]
    decide +kernel
  obtain ⟨_, hsup, hin, hout⟩ := hBp
  have htake : (List.replicate 1999 (0 : Point ℚ 2) ++ [![1, 0]]).take 2 = [0, 0] := by
    rw [List.take_append_of_le_length (by rw [List.length_replicate]; omega), List.take_replicate]
    rfl
  unfold compute
  rw [welzlParallel, if_neg (by rw [hlen]; omega)]
  rw [support2Ball, if_neg (by rw [hlen]; omega), htake, hB]
  simp only [Except.bind]
  rw [if_neg (by omega), hlen]
  unfold parallelPrefix
  rw [if_pos (by omega), serialPrefix, serialFrom_last]
  · simp only [cleanUp, Except.bind, mtfPivotPar, findPivotPar]
    rw [if_pos (by rw [hlen])]
    rfl
  · intro j hj
    have hg : (List.replicate 1999 (0 : Point ℚ 2) ++ [![1, 0]])[j]? = some 0 := by
      rw [List.getElem?_append_left (by rw [List.length_replicate]; omega), List.getElem?_replicate, if_pos (by omega)]
    simp only [conflict, hg, hin]
    rfl
  · have hg : (List.replicate 1999 (0 : Point ℚ 2) ++ [![1, 0]])[1999]? = some ![1, 0] := by
      rw [List.getElem?_append_right (by rw [List.length_replicate]), List.length_replicate]
      rfl
    simp only [conflict, hg, hout]
    rfl

/-- C36 with the epsilon of the library (`1e-5`): the returned ball need not contain every point. -/
theorem c36_eps_false : ∃ P : List (Point ℚ 2), ∃ B, compute plain plain (1 / 100000) 0 (fun L => L.headD 0) P = .ok B ∧
    ∃ p ∈ P, B.r2 < distSqr p B.center := by
  refine ⟨[![-1, 0], ![1, 0], ![0, 1 + 1 / 200000]], ?_⟩
  have h : (compute plain plain (1 / 100000) 0 (fun L => L.headD 0)
      [(![-1, 0] : Point ℚ 2), ![1, 0], ![0, 1 + 1 / 200000]]).toOption.map
        (fun B => decide (B.r2 < distSqr ![0, 1 + 1 / 200000] B.center)) = some true := by decide +kernel
  generalize compute plain plain (1 / 100000) 0 (fun L => L.headD 0)
      [(![-1, 0] : Point ℚ 2), ![1, 0], ![0, 1 + 1 / 200000]] = r at h ⊢
  match r, h with
  | .ok B, h => exact ⟨B, rfl, _, by simp, of_decide_eq_true (Option.some.inj h)⟩

/-- C36, fewer than two points: the routine reads outside the array. -/
theorem c36_short_ub (V VS : Variant K dim) (eps : K) (junk : ℕ → K) (pick : List ℕ → ℕ) (P : List (Point K dim))
    (h : P.length < 2) : compute V VS eps junk pick P = .error .ub := by
  unfold compute
  rw [welzlParallel, if_pos (by omega), welzlSerial, support2Ball, if_pos h]
  rfl

/-- Non-trivial runs: five points of the plane with two conflicts, in all three variants. -/
example : (compute plain plain 0 0 (fun L => L.headD 0)
    [(![0, 0] : Point ℚ 2), ![2, 0], ![1, 1], ![0, 4], ![3, 3]]).toOption.map (fun B => (B.center, B.r2)) =
      some (![1, 2], 5) ∧
    (compute mtf mtf 0 0 (fun L => L.headD 0)
    [(![0, 0] : Point ℚ 2), ![2, 0], ![1, 1], ![0, 4], ![3, 3]]).toOption.map (fun B => (B.center, B.r2)) =
      some (![1, 2], 5) ∧
    (compute (mtfPivotPar fun _ => 0) mtfPivot 0 0 (fun L => L.headD 0)
    [(![0, 0] : Point ℚ 2), ![2, 0], ![1, 1], ![0, 4], ![3, 3]]).toOption.map (fun B => (B.center, B.r2)) =
      some (![1, 2], 5) := by decide +kernel

end Verif.Seb
