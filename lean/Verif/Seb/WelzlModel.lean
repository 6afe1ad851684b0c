import Verif.Seb.BallModel
import Verif.Seb.PrefixModel

set_option linter.unusedSectionVars false
set_option linter.unusedVariables false

/-!
Model of `include/enclosingBall/welzl/welzl.h` and `src/enclosingBall/welzl/*.cpp`.

The array `P` is modified in place by the move-to-front and pivoting variants, so every routine returns the ball and the
array. The ball passed as third argument is overwritten before it is read (lines 144, 176, 215, ...) and left out.
Line numbers are those of `welzl.h`.
-/

namespace Verif.Seb

variable {K : Type} [Field K] [LinearOrder K] {dim : ℕ}

/-- Result of a routine: the ball and the array, or a failure. Serves
`include/enclosingBall/welzl/welzl.h` lines 233, 303, 315. -/
abbrev St (K : Type) [Field K] (dim : ℕ) := Except Err (Ball K dim × List (Point K dim))

/-- `std::swap(P[i], P[j])` (`include/enclosingBall/welzl/welzl.h:233, 303, 315`). -/
def swapAt (P : List (Point K dim)) (i j : ℕ) : List (Point K dim) :=
  (P.set i (P.getD j 0)).set j (P.getD i 0)

/-- `include/enclosingBall/welzl/welzl.h:76-95` (`support2Ball`): a ball on the support, completed to two points from `P`.
Reading `P` outside is undefined. -/
def support2Ball (junk : ℕ → K) (P S : List (Point K dim)) : Except Err (Ball K dim) :=
  match S with
  | [] => if P.length < 2 then .error .ub else mkBall junk (P.take 2)
  | [q] => if P.length < 1 then .error .ub else mkBall junk [q, P.getD 0 0]
  | q :: q' :: S' => mkBall junk (q :: q' :: S')

/-- `include/enclosingBall/welzl/welzl.h:97-115` (`findPivot`): the position from `s` on that is farthest outside. -/
def findPivot (P : List (Point K dim)) (B : Ball K dim) (s : ℕ) : Option ℕ :=
  ((List.range (P.length - s)).foldl (fun (acc : Option ℕ × K) k =>
    let t := distSqr (P.getD (s + k) 0) B.center - B.r2
    if acc.2 < t then (some (s + k), t) else acc) (none, 0)).1

/-- `include/enclosingBall/welzl/welzl.h:117-132` (`findPivotParallel`). `mx` is `parlay::max_element` on the list of
distances; on an empty slice its result points behind the array and is dereferenced. -/
def findPivotPar (mx : List K → ℕ) (P : List (Point K dim)) (B : Ball K dim) (s : ℕ) : Except Err (Option ℕ) :=
  if P.length ≤ s then .error .ub
  else
    let ds := (P.drop s).map fun p => distSqr p B.center
    .ok (if B.r2 < ds.getD (mx ds) 0 then some (s + mx ds) else none)

/-- What distinguishes the three algorithms: whether conflicting points are moved to the front (lines 232-233), and how a
pivot is looked for (lines 302-303; never in the first two). -/
structure Variant (K : Type) [Field K] (dim : ℕ) where
  mtf : Bool
  piv : List (Point K dim) → Ball K dim → ℕ → Except Err (Option ℕ)

/-- `include/enclosingBall/welzl/welzl.h:136-163, 167-203` (`welzlSerial`, `welzlParallel`). -/
def plain : Variant K dim :=
  { mtf := false
    piv := fun _ _ _ => .ok none }

/-- `include/enclosingBall/welzl/welzl.h:207-239, 243-283` (`welzlMtfSerial`, `welzlMtfParallel`). -/
def mtf : Variant K dim :=
  { mtf := true
    piv := fun _ _ _ => .ok none }

/-- `include/enclosingBall/welzl/welzl.h:287-321` (`welzlMtfPivotSerial`). -/
def mtfPivot : Variant K dim :=
  { mtf := true
    piv := fun P B s => .ok (findPivot P B s) }

/-- `include/enclosingBall/welzl/welzl.h:323-367` (`welzlMtfPivotParallel`). -/
def mtfPivotPar (mx : List K → ℕ) : Variant K dim :=
  { mtf := true
    piv := findPivotPar mx }

/-- The test `!B.contain(P[j])` (`include/enclosingBall/welzl/welzl.h:150, 221, 301`; `process`, lines 185-188, 261-264,
343-346). After a failure nothing happens any more. -/
def conflict (eps : K) (s : St K dim) (j : ℕ) : Bool :=
  match s with
  | .error _ => false
  | .ok (B, P) =>
    match P[j]? with
    | none => false
    | some p => !B.contain eps p

/-- `if (ii != -1) std::swap(P[ii], P[i])` (`include/enclosingBall/welzl/welzl.h:303, 350`). -/
def pivotSwap (P : List (Point K dim)) (o : Option ℕ) (i : ℕ) : List (Point K dim) :=
  match o with
  | some ii => swapAt P ii i
  | none => P

/-- The treatment of a conflict at position `i` (`include/enclosingBall/welzl/welzl.h:151-157, 223-233, 302-315`;
`cleanUp`, lines 190-196, 266-276, 348-360): swap a pivot to position `i`, grow the ball if it is the ball of the
support (only its exception matters: the ball is recomputed), recursive call on the prefix with the point added to the
support, move to front. -/
def cleanUp (V : Variant K dim) (call : List (Point K dim) → List (Point K dim) → St K dim) (S : List (Point K dim))
    (i : ℕ) (s : St K dim) : St K dim :=
  s.bind fun BP =>
    (V.piv BP.2 BP.1 (i + 1)).bind fun o =>
      let P1 := pivotSwap BP.2 o i
      let p := P1.getD i 0
      (if S.length = BP.1.sup.length then (BP.1.grow p).map fun _ => () else .ok ()).bind fun _ =>
        (call (P1.take i) (S ++ [p])).map fun BQ =>
          let P2 := BQ.2 ++ P1.drop i
          (BQ.1, if V.mtf = true ∧ dim - S.length < i then swapAt P2 (dim - S.length) i else P2)

/-- `include/enclosingBall/welzl/welzl.h:136-163, 207-239, 287-321`: the serial routines. -/
def welzlSerial (V : Variant K dim) (eps : K) (junk : ℕ → K) :
    ℕ → List (Point K dim) → List (Point K dim) → St K dim
  | 0, _, _ => .error .fuel
  | fuel + 1, P, S =>
    (support2Ball junk P S).bind fun B =>
      if B.sup.length = dim + 1 then .ok (B, P)
      else (serialPrefix (conflict eps) (cleanUp V (welzlSerial V eps junk fuel) S) P.length (.ok (B, P))).1

/-- `include/enclosingBall/welzl/welzl.h:165-203, 241-283, 323-367`: the parallel routines; below 2000 points the serial
routine `VS` is called. `flagSize` is the length of the shared array `flag`. -/
def welzlParallel (V VS : Variant K dim) (eps : K) (junk : ℕ → K) (pick : List ℕ → ℕ) (flagSize : ℕ) :
    ℕ → List (Point K dim) → List (Point K dim) → St K dim
  | 0, _, _ => .error .fuel
  | fuel + 1, P, S =>
    if P.length < 2000 then welzlSerial VS eps junk (P.length + 1) P S
    else
      (support2Ball junk P S).bind fun B =>
        if B.sup.length = dim + 1 then .ok (B, P)
        else
          (parallelPrefix (conflict eps) (cleanUp V (welzlParallel V VS eps junk pick flagSize fuel) S) pick flagSize
            P.length 200000 500000 (.ok (B, P))).bind fun r => r.1

/-- `src/enclosingBall/welzl/seb.cpp:9-19`, `sebMtf.cpp:9-19`, `sebMtfPivot.cpp:9-19` (`compute`), after the input has
been shuffled to `P`; `flag` is allocated with `P.size() + 1` entries by the outermost call. -/
def compute (V VS : Variant K dim) (eps : K) (junk : ℕ → K) (pick : List ℕ → ℕ) (P : List (Point K dim)) :
    Except Err (Ball K dim) :=
  (welzlParallel V VS eps junk pick (P.length + 1) (P.length + 1) P []).map fun r => r.1

end Verif.Seb
