import Verif.Outcome
import Mathlib.Analysis.Real.Sqrt
import Mathlib.Algebra.Order.Floor.Semiring

set_option linter.unusedSectionVars false
set_option linter.unusedVariables false

/-!
Model of the uniform data generators (`include/dataset/uniform.h`). Coordinates are exact reals. `parlay::hash64` is any function to
64-bit numbers and the conversion of a 64-bit number to `floatT` is any function (the theorems ask that it is monotone; the
conversion to `double` rounds). Integers are kept modulo `2^64`. Every parallel loop visits its indices in an order that is a parameter.
-/

namespace Verif.Dataset

/-- A point with `d` real coordinates (`include/pargeo/point.h:28`). -/
abbrev Pt (d : ℕ) := Fin d → ℝ

/-- `include/pargeo/point.h:98-105`: distance from the origin. -/
noncomputable def len {d : ℕ} (p : Pt d) : ℝ := Real.sqrt (∑ i, p i * p i)

/-- What the generators take from their surroundings: `parlay::hash64`, and the conversion of `size_t` to `floatT`. Serves
`include/dataset/uniform.h` lines 16-19. -/
structure Rng where
  hash : ℕ → ℕ
  conv : ℕ → ℝ

/-- `include/dataset/uniform.h:16-19` (`randFloat`). -/
noncomputable def randFloat (g : Rng) (i : ℕ) : ℝ := g.conv (g.hash i) / g.conv (2 ^ 64 - 1)

/-- `include/dataset/uniform.h:21-27` (`randRange`). -/
noncomputable def randRange (g : Rng) (i : ℕ) (lo hi : ℝ) : Except Err ℝ :=
  if hi ≤ lo then .error .throws else .ok (randFloat g ((i + 1) % 2 ^ 64) * (hi - lo) + lo)

/-- `include/dataset/uniform.h:31-35`: the seeds of the coordinates. -/
def seed (g : Rng) (i : ℕ) : ℕ → ℕ
  | 0 => i
  | j + 1 => ((j + 1) * i + g.hash (seed g i j)) % 2 ^ 64

/-- `include/dataset/uniform.h:29-41` (`randNd`). -/
noncomputable def randNd (g : Rng) (d i : ℕ) : Pt d := fun j => 2 * randFloat g (seed g i j) - 1

/-- `include/dataset/uniform.h:48-53`: the loop of `randInUnitSphere`, from iteration `j` on, for at most `fuel` iterations. -/
noncomputable def inSphereLoop (g : Rng) (d i : ℕ) : ℕ → ℕ → Except Err (Pt d)
  | 0, _ => .error .fuel
  | fuel + 1, j =>
    if 1 < len (randNd g d ((g.hash j + i) % 2 ^ 64)) then inSphereLoop g d i fuel (j + 1)
    else .ok (randNd g d ((g.hash j + i) % 2 ^ 64))

/-- `include/dataset/uniform.h:43-54` (`randInUnitSphere`). -/
noncomputable def randInUnitSphere (g : Rng) (fuel d i : ℕ) : Except Err (Pt d) := inSphereLoop g d i fuel 0

/-- `include/pargeo/point.h:61-64`. -/
noncomputable def smul {d : ℕ} (p : Pt d) (s : ℝ) : Pt d := fun i => p i * s

/-- `include/dataset/uniform.h:56-63` (`randOnUnitSphere`). The code divides by zero when the vector is zero and returns coordinates that
are not numbers; the model has no such values and reports undefined behaviour. -/
noncomputable def randOnUnitSphere (g : Rng) (fuel d i : ℕ) (scale : ℝ) : Except Err (Pt d) :=
  (randInUnitSphere g fuel d i).bind fun v =>
    if len v = 0 then .error .ub else .ok (smul (fun j => v j / len v) scale)

/-- One iteration of a parallel loop that replaces element `off + i` of the sequence. Serves
`include/dataset/uniform.h` lines 77-81. -/
def loopStep {d : ℕ} (off : ℕ) (f : ℕ → Pt d → Except Err (Pt d)) (P : List (Pt d)) (i : ℕ) : Except Err (List (Pt d)) :=
  match P[off + i]? with
  | none => .error .ub
  | some p => (f i p).map fun q => P.set (off + i) q

/-- `parlay::parallel_for(0, m, ...)` whose body replaces element `off + i` (for instance `include/dataset/uniform.h:77-81`); `ord` is
the order of the iterations. -/
def parFor {d : ℕ} (off : ℕ) (f : ℕ → Pt d → Except Err (Pt d)) : List ℕ → List (Pt d) → Except Err (List (Pt d))
  | [], P => .ok P
  | i :: ord, P => (loopStep off f P i).bind fun P' => parFor off f ord P'

/-- The order of the iterations of a parallel loop: number of the loop in the function, number of iterations. Serves
`include/dataset/uniform.h` lines 74,95. -/
abbrev Sched := ℕ → ℕ → List ℕ

/-- `include/dataset/uniform.h:74,95`. -/
noncomputable def theScale (n : ℕ) (scale : ℝ) : ℝ := if scale < 0 then n else scale

/-- The default point (`include/pargeo/point.h:31`); its coordinates are never read. -/
def noPt (d : ℕ) : Pt d := fun _ => 0

/-- `include/dataset/uniform.h:67-84` (`uniformInPolyPoints`). -/
noncomputable def uniformIn (g : Rng) (fuel d : ℕ) (σ : Sched) (n shape : ℕ) (scale : ℝ) : Except Err (List (Pt d)) :=
  parFor 0 (fun i _ =>
      if shape = 0 then (randInUnitSphere g fuel d i).map fun p => smul p (theScale n scale)
      else if shape = 1 then .ok (smul (randNd g d i) (theScale n scale))
      else .error .throws)
    (σ 0 n) (List.replicate n (noPt d))

/-- `include/dataset/uniform.h:100-104`: the number of points outside the sphere. The conversion of a negative number to `size_t` is
undefined. -/
noncomputable def outerCount (d n : ℕ) (t : ℝ) : Except Err ℕ :=
  let a1 := (1 + t) ^ (d - 1)
  let a2 := (1 - t) ^ (d - 1)
  if a1 * n / (a1 + a2) ≤ -1 then .error .ub else .ok ⌊a1 * n / (a1 + a2)⌋₊

/-- `include/dataset/uniform.h:99-119`: the points on a sphere. Division by `r2 = 0` (thickness 1) and by `r1 = 0` (thickness -1) gives
infinities in the code; the model reports undefined behaviour. The second loop is empty if `n1 > n`. -/
noncomputable def onSphere (g : Rng) (fuel d : ℕ) (σ : Sched) (n : ℕ) (t scale : ℝ) : Except Err (List (Pt d)) :=
  let r1 := 1 + t
  let r2 := 1 - t
  if r1 = 0 ∨ r2 = 0 then .error .ub
  else (outerCount d n t).bind fun n1 =>
    let t1 := 1 - 1 / r1
    let t2 := 1 / r2 - 1
    (parFor 0 (fun i _ => (randOnUnitSphere g fuel d i r1).map fun p => smul (smul p (1 - t1 * randFloat g i)) (theScale n scale))
      (σ 0 n1) (List.replicate n (noPt d))).bind fun P =>
    parFor n1 (fun i _ => (randOnUnitSphere g fuel d (n1 + i) r2).map fun p =>
        smul (smul p (t2 * randFloat g (n1 + i) + 1)) (theScale n scale))
      (σ 1 (n - n1)) P

/-- Assignment to a coordinate (`include/pargeo/point.h:71`). -/
def setCoord {d : ℕ} (p : Pt d) (c : ℕ) (v : ℝ) : Pt d := fun i => if i.val = c then v else p i

/-- `include/dataset/uniform.h:131-134,145-150`: the loops that move points to the faces; a face is a coordinate and a range. All faces but
the last get `m` points, the last gets the rest. `k` is the number of the loop, `off` the first point of the next face. -/
noncomputable def faces {d : ℕ} (g : Rng) (σ : Sched) (n m : ℕ) :
    List (ℕ × ℝ × ℝ) → ℕ → ℕ → List (Pt d) → Except Err (List (Pt d))
  | [], _, _, P => .ok P
  | [(c, lo, hi)], k, off, P =>
    parFor off (fun i p => (randRange g (i + off) lo hi).map fun v => setCoord p c v) (σ k (n - off)) P
  | (c, lo, hi) :: fs, k, off, P =>
    (parFor off (fun i p => (randRange g (i + off) lo hi).map fun v => setCoord p c v) (σ k m) P).bind fun P' =>
      faces g σ n m fs (k + 1) (off + m) P'

/-- `include/dataset/uniform.h:127-134,141-150`: the faces in the order of the loops. -/
noncomputable def faceList (d : ℕ) (t : ℝ) : List (ℕ × ℝ × ℝ) :=
  if d = 2 then [(1, 1 - t, 1 + t), (1, -1 - t, -1 + t), (0, 1 - t, 1 + t), (0, -1 - t, -1 + t)]
  else [(2, 1 - t, 1 + t), (2, -1 - t, -1 + t), (1, 1 - t, 1 + t), (1, -1 - t, -1 + t), (0, 1 - t, 1 + t), (0, -1 - t, -1 + t)]

/-- `include/dataset/uniform.h:121-153`: the points on a cube. -/
noncomputable def onCube (g : Rng) (d : ℕ) (σ : Sched) (n : ℕ) (t scale : ℝ) : Except Err (List (Pt d)) :=
  if d = 2 ∨ d = 3 then
    (parFor 0 (fun i _ => .ok (randNd g d i)) (σ 0 n) (List.replicate n (noPt d))).bind fun P =>
    (faces g σ n (n / (2 * d)) (faceList d t) 1 0 P).bind fun P' =>
    parFor 0 (fun i p => .ok (smul p (theScale n scale))) (σ 7 n) P'
  else .error .throws

/-- `include/dataset/uniform.h:86-156` (`uniformOnPolyPoints`). -/
noncomputable def uniformOn (g : Rng) (fuel d : ℕ) (σ : Sched) (n shape : ℕ) (t scale : ℝ) : Except Err (List (Pt d)) :=
  if shape = 0 then onSphere g fuel d σ n t scale
  else if shape = 1 then onCube g d σ n t scale
  else .error .throws

end Verif.Dataset
