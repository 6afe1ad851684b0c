import Verif.Outcome
import Verif.BatchKd.TreeModel

set_option linter.unusedSectionVars false
set_option linter.unusedVariables false

/-!
Model of `src/closestPair/closestPair.cpp`.

Points are items `α` with a position, so that two copies of a point are two items. A slice of the point array is a list.
The sorts by one coordinate are given by their contract (`SortItems`: a sorted permutation). A `pointPair` with `dist == floatMax`
is `none`; otherwise `dist` is the distance of the two points, which is what every call site stores.
The halves are solved one after the other; `par_do` works on disjoint slices. The recursive calls permute their slices in
place; the later `filter` of the whole slice then sees another order of the same items, which the model ignores (the filtered
list is sorted again or given to the brute-force search).

Reading behind the end of an array is undefined. The parameter `strict` selects how it is treated: with `strict = true` it is the
outcome `ub`; with `strict = false` the read yields some value, which only ever becomes the `u`, `v` of a pair with `dist ==
floatMax`, so it is represented by `none`.
-/

namespace Verif.ClosestPair

open Verif BatchKd

variable {α K : Type} {d : ℕ} [Field K] [LinearOrder K]

/-- `closestPair.cpp:40-54` (`pointPair`): two points, or `none` for a pair with `dist == floatMax`. -/
abbrev PP (α : Type) := Option (α × α)

section
variable (dist : Point K d → Point K d → K) (pos : α → Point K d)

/-- Comparison `a.dist < b.dist` of two pairs, `floatMax` being larger than every distance. Serves
`closestPair.cpp` lines 58-64. -/
def ppLt : PP α → PP α → Bool
  | some a, some b => decide (dist (pos a.1) (pos a.2) < dist (pos b.1) (pos b.2))
  | some _, none => true
  | none, _ => false

/-- `closestPair.cpp:58-64` (`pointPair::closer(uu, vv)`). -/
def closer (A : PP α) (u v : α) : PP α :=
  if ppLt dist pos (some (u, v)) A then some (u, v) else A

/-- `closestPair.cpp:183-187` (the two loops over a sorted slab): every point with the `check` points after it. The array
version 232-243 takes the first smallest of the same pairs in the same order. -/
def scan (check : ℕ) : PP α → List α → PP α
  | A, [] => A
  | A, x :: L => scan check ((L.take check).foldl (fun B y => closer dist pos B x y) A) L

/-- `closestPair.cpp:107-116` (`bruteForceSerial`), its `parallel_for` (110) run as a loop: all pairs of positions `i < j`.
`P[0]` and `P[1]` are read first (109), out of bounds if there are fewer than two points. The races of the loop have a model of
their own (`RaceModel`). -/
def brute (strict : Bool) (P : List α) : Except Err (PP α) :=
  if strict && decide (P.length < 2) then .error .ub else .ok (scan dist pos P.length none P)

/-- `closestPair.cpp:123-135` (`findSlab`). -/
def inSlab (k : Fin d) (xm delta : K) (x : α) : Bool :=
  decide (pos x k ≤ xm + delta) && decide (xm - delta ≤ pos x k)

/-- `closestPair.cpp:137-141` (`intPow`). -/
def intPow (base : ℕ) : ℕ → ℕ
  | 0 => 1
  | e + 1 => intPow base e * base

/-- `closestPair.cpp:143-144` (`numToCheck<dim>`). -/
def numToCheck (d : ℕ) : ℕ := intPow 2 (d * 2 - 1) - 1

/-- `closestPair.cpp:156-193` and 201-261: one level of the divide and conquer along coordinate `k`. Slices with fewer than
`base` points go to `small`; the slab goes to `slabSolve`. `better` without a distance cannot occur, the halves having
at least two points. The first argument bounds the recursion. -/
def level (srt : Fin d → List α → List α) (base : ℕ) (small slabSolve : List α → Except Err (PP α)) (k : Fin d) :
    ℕ → List α → Except Err (PP α)
  | 0, _ => .error .fuel
  | fuel + 1, P =>
    if P.length < base then small P
    else
      let P' := srt k P
      let xm := P.length / 2
      match P'[xm]? with
      | none => .error .ub
      | some c =>
        (level srt base small slabSolve k fuel (P'.take xm)).bind fun Lr =>
        (level srt base small slabSolve k fuel (P'.drop xm)).bind fun Rr =>
        let better := if ppLt dist pos Lr Rr then Lr else Rr
        match better with
        | none => .error .ub
        | some b =>
          let delta := dist (pos b.1) (pos b.2)
          if delta = 0 then .ok (some b)
          else
            (slabSolve (P'.filter (inSlab pos k (pos c k) delta))).map fun slabR =>
              if ppLt dist pos slabR (some b) then slabR else some b

/-- `closestPair.cpp:180-187`: the slab of a call with `k == 1`, sorted by coordinate 0 and scanned. -/
def slabScan (hd : 0 < d) (srt : Fin d → List α → List α) (S : List α) : Except Err (PP α) :=
  .ok (scan dist pos (numToCheck d) none (srt ⟨0, hd⟩ S))

/-- `closestPair.cpp:156-193` (`divideConquerSerial`) with the dimension `k` of the call. With `k == 0` it throws (189) where
the slab would be solved. -/
def serial (strict : Bool) (srt : Fin d → List α → List α) : (k : ℕ) → k < d → List α → Except Err (PP α)
  | 0, h, P => level dist pos srt 100 (brute dist pos strict) (fun _ => .error .throws) ⟨0, h⟩ (P.length + 1) P
  | 1, h, P => level dist pos srt 100 (brute dist pos strict) (slabScan dist pos (by omega) srt) ⟨1, h⟩ (P.length + 1) P
  | k + 2, h, P =>
    level dist pos srt 100 (brute dist pos strict) (serial strict srt (k + 1) (by omega)) ⟨k + 2, h⟩ (P.length + 1) P

/-- `closestPair.cpp:227-252`: the slab of a parallel call with `k == 1`. With more than 100 points (230) an array of
`np * check` pairs is filled; for the last points `Pp[i+j+1]` (239) is behind the end of `Pp`. -/
def slabScanPar (strict : Bool) (hd : 0 < d) (srt : Fin d → List α → List α) (S : List α) : Except Err (PP α) :=
  if strict && decide (100 < S.length) then .error .ub else slabScan dist pos hd srt S

/-- `closestPair.cpp:201-261` (`divideConquerParallel`). -/
def parallel (strict : Bool) (srt : Fin d → List α → List α) : (k : ℕ) → k < d → List α → Except Err (PP α)
  | 0, h, P =>
    level dist pos srt 10000 (serial dist pos strict srt 0 h) (fun _ => .error .throws) ⟨0, h⟩ (P.length + 1) P
  | 1, h, P =>
    level dist pos srt 10000 (serial dist pos strict srt 1 h) (slabScanPar dist pos strict (by omega) srt) ⟨1, h⟩
      (P.length + 1) P
  | k + 2, h, P =>
    level dist pos srt 10000 (serial dist pos strict srt (k + 2) h) (parallel strict srt (k + 1) (by omega)) ⟨k + 2, h⟩
      (P.length + 1) P

/-- `closestPair.cpp:269-283` (`closestPair`): the array is copied, solved along the last coordinate and the two points are
returned. A pair with `dist == floatMax` still has two points; it is reported as `none`. -/
def closestPair (strict serialRun : Bool) (srt : Fin d → List α → List α) (hd : 0 < d) (P : List α) :
    Except Err (PP α) :=
  if serialRun then serial dist pos strict srt (d - 1) (by omega) P
  else parallel dist pos strict srt (d - 1) (by omega) P

end

end Verif.ClosestPair
