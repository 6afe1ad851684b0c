import Mathlib.Data.List.Basic
import Verif.Outcome

set_option linter.unusedSectionVars false
set_option linter.unusedVariables false

/-!
Model of `include/enclosingBall/prefixFor.h`. The state `σ` stands for the array `A` together with
everything `process` and `cleanUp` refer to; `process s j` is `process(A[j])` in state `s`, and
`cleanUp j s` is the state after `cleanUp(A, j)`. `process` does not change the state (the callers in
`include/enclosingBall/welzl/welzl.h` test containment in the current ball). The runs also return the
positions at which `cleanUp` was called, in order.
-/

namespace Verif.Seb

variable {σ : Type}

/-- `include/enclosingBall/prefixFor.h:72-75` (and 23-26): the serial loop over `cnt` positions starting
at `i`. -/
def serialFrom (process : σ → ℕ → Bool) (cleanUp : ℕ → σ → σ) : ℕ → ℕ → σ → σ × List ℕ
  | 0, _, s => (s, [])
  | cnt + 1, i, s =>
    if process s i then
      let r := serialFrom process cleanUp cnt (i + 1) (cleanUp i s)
      (r.1, i :: r.2)
    else serialFrom process cleanUp cnt (i + 1) s

/-- `include/enclosingBall/prefixFor.h:21-27` (`serial_prefix`) on an array of `n` elements. -/
def serialPrefix (process : σ → ℕ → Bool) (cleanUp : ℕ → σ → σ) (n : ℕ) (s : σ) : σ × List ℕ :=
  serialFrom process cleanUp n 0 s

/-- `include/enclosingBall/prefixFor.h:80-88`: the flags of positions `i, ..., i+m-1` after the exclusive
scan, followed by the total. -/
def conflictScan (process : σ → ℕ → Bool) (s : σ) (i m : ℕ) : List ℕ :=
  (List.range (m + 1)).map fun j => ((List.range j).filter fun k => process s (i + k)).length

/-- `include/enclosingBall/prefixFor.h:93-96`: the iterations `j` of the parallel loop that write
`conflict = j`. -/
def conflictWriters (flags : List ℕ) (m : ℕ) : List ℕ :=
  (List.range m).filter fun j => flags[j]? = some 0 ∧ flags[j]? ≠ flags[j + 1]?

/-- `include/enclosingBall/prefixFor.h:62-64`: the end of the next prefix. -/
def nextPrefix (n PREFIX i : ℕ) : ℕ := if i = 0 then PREFIX else min (i * 3) n

/-- `include/enclosingBall/prefixFor.h:62-107`: the loop of `parallel_prefix`. `flagSize` is the length of
`flag`, whose `at` throws outside; reading `A` outside is undefined. `pick` tells which of the racing
writes to `conflict` comes last; without any write the uninitialised variable would be read. -/
def prefixLoop (process : σ → ℕ → Bool) (cleanUp : ℕ → σ → σ) (pick : List ℕ → ℕ)
    (flagSize n PREFIX THRESH : ℕ) : ℕ → ℕ → σ → Except Err (σ × List ℕ)
  | 0, _, _ => .error .fuel
  | fuel + 1, i, s =>
    if n ≤ i then .ok (s, [])
    else
      let pre := nextPrefix n PREFIX i
      if n < pre then .error .ub
      else if pre - i < THRESH then
        let r := serialFrom process cleanUp (pre - i) i s
        (prefixLoop process cleanUp pick flagSize n PREFIX THRESH fuel pre r.1).map fun r2 =>
          (r2.1, r.2 ++ r2.2)
      else if flagSize ≤ pre - i then .error .throws
      else
        let flags := conflictScan process s i (pre - i)
        if 0 < (flags[pre - i]?).getD 0 then
          match conflictWriters flags (pre - i) with
          | [] => .error .ub
          | w :: ws =>
            let c := i + pick (w :: ws)
            (prefixLoop process cleanUp pick flagSize n PREFIX THRESH fuel c (cleanUp c s)).map
              fun r2 => (r2.1, c :: r2.2)
        else prefixLoop process cleanUp pick flagSize n PREFIX THRESH fuel pre s

/-- `include/enclosingBall/prefixFor.h:29-125` (`parallel_prefix`). -/
def parallelPrefix (process : σ → ℕ → Bool) (cleanUp : ℕ → σ → σ) (pick : List ℕ → ℕ)
    (flagSize n PREFIX THRESH : ℕ) (s : σ) : Except Err (σ × List ℕ) :=
  if n < THRESH then .ok (serialPrefix process cleanUp n s)
  else prefixLoop process cleanUp pick flagSize n PREFIX THRESH (2 * n + 2) 0 s

end Verif.Seb
