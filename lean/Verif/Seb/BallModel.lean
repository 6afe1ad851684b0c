import Verif.Geom
import Verif.Outcome

set_option linter.unusedSectionVars false
set_option linter.unusedVariables false

/-!
Model of `include/enclosingBall/ball.h`, with `ROBUST_BALL` as defined on its line 6. Numbers are elements of an ordered
field; the radius is represented by its square.
-/

namespace Verif.Seb

variable {K : Type} [Field K] {dim : ℕ}

/-- `include/enclosingBall/ball.h:19-29`: supporting points, inverse matrix (row-major, flat), the vectors `Q` and `La`,
offset, centre (relative to the offset) and the square of the radius. Array entries that the code has not written have
arbitrary values. -/
structure Ball (K : Type) (dim : ℕ) where
  /-- the first `d` entries of `P` -/
  sup : List (Point K dim)
  /-- `AInv` -/
  ainv : ℕ → K
  /-- `Q` -/
  q : ℕ → K
  /-- `La` -/
  la : ℕ → K
  /-- `offset` -/
  off : Point K dim
  /-- `c` -/
  c : Point K dim
  /-- square of `r` -/
  r2 : K

/-- `include/enclosingBall/ball.h:87` (`center`). -/
def Ball.center (B : Ball K dim) : Point K dim := fun x => B.c x + B.off x

/-- `P[i] - P[0]`, as in `include/enclosingBall/ball.h:50, 65, 68, 155, 158`. -/
def diff (P : List (Point K dim)) (i : ℕ) : Point K dim := fun x => P.getD i 0 x - P.getD 0 0 x

/-- `include/enclosingBall/ball.h:47-54` (`recompute`): centre and squared radius from `La`. -/
def Ball.recompute (B : Ball K dim) : Ball K dim :=
  let v : Point K dim := fun x => ∑ i ∈ Finset.range (B.sup.length - 1), diff B.sup (i + 1) x * B.la i
  { B with
    c := fun x => v x + B.sup.getD 0 0 x
    r2 := dot v v }

/-- `include/enclosingBall/ball.h:56-60` (`twoPointConstruct`). The matrices are left as they are. -/
def Ball.twoPoint (B : Ball K dim) : Ball K dim :=
  { B with
    c := fun x => (B.sup.getD 0 0 x + B.sup.getD 1 0 x) / 2
    r2 := distSqr (B.sup.getD 0 0) (B.sup.getD 1 0) / 4 }

/-- `include/enclosingBall/ball.h:32-45` (`determinant2by2`, `inverse2by2`) on a flat 2 by 2 matrix. -/
def inverse2 (m : ℕ → K) : ℕ → K :=
  let coeff := 1 / (m 0 * m 3 - m 1 * m 2)
  fun i => if i = 0 then m 3 * coeff else if i = 1 then -m 1 * coeff else if i = 2 then -m 2 * coeff
    else if i = 3 then m 0 * coeff else m i

/-- `Lambda = AInv.dot(Q)` for an `n` by `n` matrix (`include/enclosingBall/ball.h:76-81, 185-191`). -/
def lambda (n : ℕ) (ainv q la : ℕ → K) (i : ℕ) : K :=
  if i < n then ∑ j ∈ Finset.range n, ainv (i * n + j) * q j else la i

/-- `include/enclosingBall/ball.h:62-83` (`threePointConstruct`), called with `d = 3` only. -/
def Ball.threePoint (B : Ball K dim) : Ball K dim :=
  let q : ℕ → K := fun i => if i < 2 then dot (diff B.sup (i + 1)) (diff B.sup (i + 1)) else B.q i
  let a : ℕ → K := fun k =>
    if k < 4 then 2 * dot (diff B.sup (k / 2 + 1)) (diff B.sup (k % 2 + 1)) else B.ainv k
  let ainv := inverse2 a
  Ball.recompute { B with
    ainv := ainv
    q := q
    la := lambda 2 ainv q B.la }

/-- The extended inverse of `include/enclosingBall/ball.h:152-183`: `m` is the old size of the matrix, `v` the difference
of the new point and `P[0]`. -/
def extend (P : List (Point K dim)) (m : ℕ) (ainv : ℕ → K) (v : Point K dim) : ℕ → K :=
  let tmp : ℕ → K := fun j => 2 * dot (diff P (j + 1)) v
  let mu : ℕ → K := fun i => ∑ j ∈ Finset.range m, ainv (i * m + j) * tmp j
  let z : K := 2 * dot v v - ∑ i ∈ Finset.range m, tmp i * mu i
  fun k =>
    let i := k / (m + 1)
    let j := k % (m + 1)
    if i < m then
      if j < m then ainv (i * m + j) + mu i * mu j / z else -mu i / z
    else if i = m then
      if j < m then -mu j / z else 1 / z
    else ainv k

/-- `include/enclosingBall/ball.h:139-193` (`grow`). -/
def Ball.grow (B : Ball K dim) (p : Point K dim) : Except Err (Ball K dim) :=
  if dim + 1 < B.sup.length + 1 then .error .throws
  else
    let P := B.sup ++ [p]
    if P.length = 3 then .ok (Ball.threePoint { B with sup := P })
    else
      let m := P.length - 2
      let v := diff P (P.length - 1)
      let ainv := extend P m B.ainv v
      let q : ℕ → K := fun i => if i = m then dot v v else B.q i
      .ok (Ball.recompute { B with
        sup := P
        ainv := ainv
        q := q
        la := lambda (m + 1) ainv q B.la })

/-- The loop `include/enclosingBall/ball.h:130`: grow by the points behind the third. -/
def growAll (B : Ball K dim) : List (Point K dim) → Except Err (Ball K dim)
  | [] => .ok B
  | p :: l => (B.grow p).bind fun B' => growAll B' l

/-- The offset, `include/enclosingBall/ball.h:112-117`. -/
def centroid (PP : List (Point K dim)) : Point K dim := fun x => (PP.map fun p => p x).sum / (PP.length : K)

/-- The two- and three-or-more-point construction, `include/enclosingBall/ball.h:122-133`, on `P` as it stands in `B`. -/
def Ball.construct (B : Ball K dim) : Except Err (Ball K dim) :=
  if B.sup.length ≤ 1 then .error .throws
  else if B.sup.length = 2 then .ok B.twoPoint
  else growAll (Ball.threePoint { B with sup := B.sup.take 3 }) (B.sup.drop 3)

/-- `include/enclosingBall/ball.h:110-137`: construction from a slice. More than `dim + 1` points overrun the array `P`
(line 114). `junk` are the values of the arrays not yet written. -/
def mkBall (junk : ℕ → K) (PP : List (Point K dim)) : Except Err (Ball K dim) :=
  if dim + 1 < PP.length then .error .ub
  else
    let off := centroid PP
    let B : Ball K dim :=
      { sup := PP.map fun p => fun x => p x - off x
        ainv := junk
        q := junk
        la := junk
        off := off
        c := 0
        r2 := 0 }
    B.construct.map fun B' =>
      { B' with
        sup := B'.sup.map fun p => fun x => p x + off x }

/-- `include/enclosingBall/ball.h:103-105` (`operator==`): compares the ball with itself. -/
def ballEq [DecidableEq K] (b1 b2 : Ball K dim) : Bool := decide (b1.c = b1.c) && decide (b1.r2 = b1.r2)

/-- The comparison `√D ≤ √R + eps` of distances (`include/enclosingBall/ball.h:91`; also
`src/enclosingBall/scan/seb.cpp:67, 69, 117, 119`), written without square roots: it holds iff
`D - R - eps² ≤ 2 * eps * √R`. -/
def within [LinearOrder K] (eps D R : K) : Bool :=
  let t := D - R - eps * eps
  decide (t ≤ 0) || decide (t * t ≤ 4 * (eps * eps) * R)

/-- `include/enclosingBall/ball.h:88-91` (`contain`): `dist (p - offset) c ≤ r + eps`. -/
def Ball.contain [LinearOrder K] (eps : K) (B : Ball K dim) (p : Point K dim) : Bool :=
  within eps (distSqr (fun x => p x - B.off x) B.c) B.r2

end Verif.Seb
