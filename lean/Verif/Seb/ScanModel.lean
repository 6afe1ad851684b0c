import Verif.Seb.WelzlModel

set_option linter.unusedSectionVars false
set_option linter.unusedVariables false

/-!
Model of `src/enclosingBall/scan/seb.cpp` and `src/enclosingBall/sampling/seb.cpp` (whose first 146 lines repeat the
former, shifted by one line). Distances are represented by their squares.
-/

namespace Verif.Seb

variable {K : Type} [Field K] [LinearOrder K] {dim : ℕ}

/-- `src/enclosingBall/scan/seb.cpp:38-48` (`quadrant`). -/
def quadrant (p center : Point K dim) : ℕ := ∑ i : Fin dim, if center i < p i then 2 ^ (i : ℕ) else 0

/-- The arrays `idx` and `dist` of a scan: per orthant the position and the squared distance of the farthest point found;
`none` is `idx = -1`, `dist = -1` (`src/enclosingBall/scan/seb.cpp:61-63, 101-107, 166-168`; `dist` is reset on line 182
before every scan). -/
abbrev Table (K : Type) := ℕ → Option (ℕ × K)

/-- `src/enclosingBall/scan/seb.cpp:66-73` (and 116-122): one point. A distance larger than `r + eps` is larger than
`-1 + eps`. -/
def scanStep (eps : K) (c : Point K dim) (r2 : K) (A : List (Point K dim)) (t : Table K) (i : ℕ) : Table K :=
  let p := A.getD i 0
  let D := distSqr p c
  if within eps D r2 then t
  else
    let o := quadrant c p
    match t o with
    | none => Function.update t o (some (i, D))
    | some (_, D') => if within eps D D' then t else Function.update t o (some (i, D))

/-- `src/enclosingBall/scan/seb.cpp:65-74` (and 115-123): positions `s, ..., e-1`. -/
def scanRange (eps : K) (c : Point K dim) (r2 : K) (A : List (Point K dim)) (s e : ℕ) : Table K :=
  (List.range' s (e - s)).foldl (scanStep eps c r2 A) fun _ => none

/-- `src/enclosingBall/scan/seb.cpp:129-138`: the farthest of the points found by the blocks. -/
def combine (g loc : Table K) : Table K := fun o =>
  match loc o with
  | none => g o
  | some (i, D) =>
    match g o with
    | none => some (i, D)
    | some (j, D') => if D' < D then some (i, D) else some (j, D')

/-- `src/enclosingBall/scan/seb.cpp:50-147` (`ortScanSerial`, `ortScan`): the points appended to `support`; `found` is
whether there are any. `W` is `max(96, num_workers())`. The blocks write to disjoint parts of `idx` and `dist`. -/
def ortScan (eps : K) (W : ℕ) (c : Point K dim) (r2 : K) (A : List (Point K dim)) : List (Point K dim) :=
  let t : Table K :=
    if A.length < 2000 then scanRange eps c r2 A 0 A.length
    else
      let blockSize := (A.length + W - 1) / W
      (List.range W).foldl
        (fun g p => combine g (scanRange eps c r2 A (p * blockSize) (min ((p + 1) * blockSize) A.length)))
        fun _ => none
  (List.range (2 ^ dim)).filterMap fun o => (t o).map fun e => A.getD e.1 0

/-- `src/enclosingBall/scan/seb.cpp:170-184` (and `sampling/seb.cpp:193-207`): scan, and recompute the ball of the support
and the points found outside. `solve` is `welzlParallel` on an array of points. -/
def scanLoop (eps : K) (W : ℕ) (solve : List (Point K dim) → Except Err (Ball K dim)) (P : List (Point K dim)) :
    ℕ → Ball K dim → Except Err (Ball K dim)
  | 0, _ => .error .fuel
  | fuel + 1, B =>
    let outs := ortScan eps W B.center B.r2 P
    if outs = [] then .ok B
    else (solve (B.sup ++ outs)).bind fun B' => scanLoop eps W solve P fuel B'

/-- `src/enclosingBall/scan/seb.cpp:149-186` (`miniDiscOrt`). With fewer than `3 * dim` points the slice passed on line
160 reaches behind the array. -/
def scanCompute (eps : K) (W : ℕ) (solve : List (Point K dim) → Except Err (Ball K dim)) (fuel : ℕ)
    (P : List (Point K dim)) : Except Err (Ball K dim) :=
  if P.length < dim * 3 then .error .ub
  else (solve (P.take (dim * 3))).bind fun B => scanLoop eps W solve P fuel B

/-- `src/enclosingBall/sampling/seb.cpp:169-189`: the sampling phase. A slice that reaches behind the array is read. -/
def sampleLoop (eps : K) (W : ℕ) (solve : List (Point K dim) → Except Err (Ball K dim)) (P : List (Point K dim))
    (step : ℕ) : ℕ → ℕ → Ball K dim → Except Err (Ball K dim)
  | 0, _, _ => .error .fuel
  | fuel + 1, scanned, B =>
    if P.length ≤ scanned then .ok B
    else if P.length < scanned + step then .error .ub
    else
      let outs := ortScan eps W B.center B.r2 ((P.drop scanned).take step)
      if outs = [] then .ok B
      else (solve (B.sup ++ outs)).bind fun B' => sampleLoop eps W solve P step fuel (scanned + step) B'

/-- `src/enclosingBall/sampling/seb.cpp:148-209` (`miniDiscOrt`). -/
def sampleCompute (eps : K) (W : ℕ) (solve : List (Point K dim) → Except Err (Ball K dim)) (fuel : ℕ)
    (P : List (Point K dim)) : Except Err (Ball K dim) :=
  if P.length < dim * 3 then .error .ub
  else
    (solve (P.take (dim * 3))).bind fun B =>
      (sampleLoop eps W solve P (P.length / 100) (P.length + 1) 0 B).bind fun B' => scanLoop eps W solve P fuel B'

end Verif.Seb
