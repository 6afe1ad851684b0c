import Verif.UnionFind.Model
import Mathlib.Data.List.Sort
import Mathlib.Order.Defs.LinearOrder

/-!
Model of `include/euclideanMst/speculativeFor.h` and `include/euclideanMst/kruskal.h`.
-/

namespace Verif.Mst

open Verif.UF

/-- How `include/euclideanMst/speculativeFor.h:103-108` adjusts the round size. The code compares
`float(numberKeep)/float(size)` with .2 and .1; the model leaves the choice open, so that no property of
floating point is used. -/
inductive Adj
  | shrink
  | grow
  | same

/-- The environment of a run of `speculative_for`: in which order the parallel loops of a round execute
their iterations (`include/euclideanMst/speculativeFor.h:81-96`) and the outcome of the comparison of
floats in 103-108. -/
structure Env where
  ordR : ℕ → List ℕ → List ℕ
  ordC : ℕ → List ℕ → List ℕ
  adj : ℕ → ℕ → ℕ → Adj

/-- Loops execute every iteration exactly once. Serves
`include/euclideanMst/speculativeFor.h` lines 80-97. -/
structure Env.Ok (env : Env) : Prop where
  permR : ∀ r l, (env.ordR r l).Perm l
  permC : ∀ r l, (env.ordC r l).Perm l

/-- One parallel loop of `include/euclideanMst/speculativeFor.h:80-97`: run `f` on the iterations in the
given order; returns the iterations for which `f` returned true. -/
def phase {σ : Type} (f : ℕ → σ → Except Err (Bool × σ)) : List ℕ → σ → Except Err (List ℕ × σ)
  | [], s => .ok ([], s)
  | i :: is, s => (f i s).bind fun (b, s') => (phase f is s').map fun (l, s'') =>
      (if b then i :: l else l, s'')

/-- `include/euclideanMst/speculativeFor.h:103-108`. -/
def adjust (a : Adj) (cur maxRound keep : ℕ) : ℕ :=
  match a with
  | .shrink => max (cur / 2) (max (maxRound / 64 + 1) keep)
  | .grow => min (cur * 2) maxRound
  | .same => cur

/-- `include/euclideanMst/speculativeFor.h:82,89`: the iterations of a round, held ones first. -/
def roundIters (hold : List ℕ) (done size : ℕ) : List ℕ :=
  (List.range size).map fun i => (hold[i]?).getD (done + i)

/-- One pass through both loops of a round, `include/euclideanMst/speculativeFor.h:80-97`: from the number
of tries left, the iterations and the state to the iterations whose `reserve` returned true, those whose
`commit` returned true and the new state. -/
abbrev Round (σ : Type) := ℕ → List ℕ → σ → Except Err (List ℕ × List ℕ × σ)

/-- `include/euclideanMst/speculativeFor.h:70-109`: the loop of `speculative_for` with `hasState`
false. `fuel` counts down from `maxTries + 1`, so running out of it is the exception of line 72. The arrays
`I` and `keep` have `maxRound` entries. Held iterations that do not fit into a round would be lost,
as in the code. -/
def specLoopR {σ : Type} (round : Round σ) (adj : ℕ → ℕ → ℕ → Adj)
    (e maxRound : ℕ) : ℕ → ℕ → List ℕ → ℕ → σ → Except Err σ
  | fuel, done, hold, cur, s =>
    if e ≤ done then .ok s else
      match fuel with
      | 0 => .error .throws
      | fuel + 1 =>
        let size := min cur (e - done)
        if maxRound < size then .error .ub else
          let its := roundIters hold done size
          (round fuel its s).bind fun (kept, committed, s2) =>
              let hold' := its.filter fun i => i ∈ kept ∧ i ∉ committed
              specLoopR round adj e maxRound fuel (done + (size - hold'.length)) hold'
                (adjust (adj fuel hold'.length size) cur maxRound hold'.length) s2

/-- `include/euclideanMst/speculativeFor.h:50-55` (`speculative_for`) for the range `[0, e)` and the default
number of tries. -/
def specForR {σ : Type} (round : Round σ) (adj : ℕ → ℕ → ℕ → Adj)
    (e granularity : ℕ) (s : σ) : Except Err σ :=
  let maxRound := max 4 (e / granularity + 1)
  specLoopR round adj e maxRound (100 + 200 * granularity + 1) 0 [] (maxRound / 4) s

/-- `include/euclideanMst/speculativeFor.h:80-97`, each iteration of the two loops as one step. -/
def atomicRound {σ : Type} (reserve commit : ℕ → σ → Except Err (Bool × σ)) (env : Env) : Round σ :=
  fun fuel its s => (phase reserve (env.ordR fuel its) s).bind fun (kept, s1) =>
    (phase commit (env.ordC fuel (its.filter (· ∈ kept))) s1).map fun (committed, s2) =>
      (kept, committed, s2)

/-- `include/euclideanMst/speculativeFor.h:50-109` (`speculative_for`) with atomic iterations. -/
def specFor {σ : Type} (reserve commit : ℕ → σ → Except Err (Bool × σ)) (env : Env)
    (e granularity : ℕ) (s : σ) : Except Err σ :=
  specForR (atomicRound reserve commit env) env.adj e granularity s

/-- State of the Kruskal steps, `include/euclideanMst/kruskal.h:61-70` and `99-109`: the end points of the
(sorted) edges, which `reserve` overwrites, the reservations (`none` is `max_idx`), the union-find
array and what the steps record about accepted edges (`UnionFindStep`: the flags `inST`;
`EdgeUnionFindStep`: the array `edges` of the union-find structure). -/
structure KSt (σ : Type) where
  eu : List ℤ
  ev : List ℤ
  R : List (Option ℕ)
  P : List ℤ
  out : σ

/-- What is recorded when edge `i` is accepted by linking `x`; the flag says that `x` is the root of the
second end of the edge (`include/euclideanMst/kruskal.h:87-88,91-92` and `128,131`). -/
abbrev Recorder (σ : Type) := σ → ℕ → ℤ → Bool → Except Err σ

/-- Array read. Serves
`include/euclideanMst/speculativeFor.h` lines 38. -/
def rd {T : Type} (l : List T) (i : ℤ) : Except Err T :=
  if 0 ≤ i then match l[i.toNat]? with | some x => .ok x | none => .error .ub else .error .ub

/-- Array write. Serves
`include/euclideanMst/speculativeFor.h` lines 38. -/
def wr {T : Type} (l : List T) (i : ℤ) (x : T) : Except Err (List T) :=
  if 0 ≤ i ∧ i.toNat < l.length then .ok (l.set i.toNat x) else .error .ub

/-- Minimum of a reservation (`none` is `max_idx`) and an index,
`include/euclideanMst/speculativeFor.h:38`. -/
def minOpt (r : Option ℕ) (i : ℕ) : Option ℕ :=
  match r with
  | none => some i
  | some j => some (min i j)

/-- `include/euclideanMst/speculativeFor.h:38`: `reserve(i)` on cell `x`, the result of `write_min`
(property C13). -/
def resv (R : List (Option ℕ)) (x : ℤ) (i : ℕ) : Except Err (List (Option ℕ)) :=
  (rd R x).bind fun r => wr R x (minOpt r i)

/-- `include/euclideanMst/kruskal.h:72-80` (`UnionFindStep::reserve`) and `111-119`
(`EdgeUnionFindStep::reserve`). -/
def reserve {σ : Type} (i : ℕ) (s : KSt σ) : Except Err (Bool × KSt σ) :=
  (rd s.eu i).bind fun a => (find s.P a).bind fun (u, P1) => (wr s.eu i u).bind fun eu =>
  (rd s.ev i).bind fun b => (find P1 b).bind fun (v, P2) => (wr s.ev i v).bind fun ev =>
    if u ≠ v then
      (resv s.R v i).bind fun R1 => (resv R1 u i).map fun R2 =>
        (true, { s with eu := eu, ev := ev, P := P2, R := R2 })
    else .ok (false, { s with eu := eu, ev := ev, P := P2 })

/-- `include/euclideanMst/speculativeFor.h:43-46`: `checkReset(i)` on cell `x`. -/
def checkReset (R : List (Option ℕ)) (x : ℤ) (i : ℕ) : Except Err (List (Option ℕ)) :=
  (rd R x).bind fun r => if r = some i then wr R x none else .ok R

/-- `include/euclideanMst/kruskal.h:87-88,91-92` and `128,131`: link and record the edge. -/
def accept {σ : Type} (rec : Recorder σ) (i : ℕ) (x y : ℤ) (side : Bool) (R : List (Option ℕ))
    (s : KSt σ) : Except Err (Bool × KSt σ) :=
  (link s.P x y).bind fun P => (rec s.out i x side).map fun o =>
    (true, { s with P := P, R := R, out := o })

/-- `include/euclideanMst/kruskal.h:82-95` (`UnionFindStep::commit`) and `121-134`
(`EdgeUnionFindStep::commit`). -/
def commit {σ : Type} (rec : Recorder σ) (i : ℕ) (s : KSt σ) : Except Err (Bool × KSt σ) :=
  (rd s.eu i).bind fun u => (rd s.ev i).bind fun v =>
  (rd s.R v).bind fun rv =>
    if rv = some i then (checkReset s.R u i).bind fun R => accept rec i v u true R s
    else (rd s.R u).bind fun ru =>
      if ru = some i then accept rec i u v false s.R s else .ok (false, s)

/-- `include/euclideanMst/kruskal.h:88,92`: `inST[E[i].id] = true`. -/
def flagRec (ids : List ℕ) : Recorder (List Bool) := fun fl i _ _ =>
  (rd ids i).bind fun id => wr fl id true

/-- An input edge: end points and weight. Serves
`include/euclideanMst/kruskal.h` lines 150-152. -/
structure WEdge (K : Type) where
  u : ℕ
  v : ℕ
  w : K

/-- `include/euclideanMst/kruskal.h:150-152` (`edgeLess`), as a Boolean "not greater", on edges tagged
with their index. -/
def edgeLe {K : Type} [LinearOrder K] (a b : WEdge K × ℕ) : Bool :=
  decide (a.1.w < b.1.w ∨ (a.1.w = b.1.w ∧ a.2 ≤ b.2))

/-- `include/euclideanMst/kruskal.h:154-158`: tag the edges with their index and sort. The order is
total on tagged edges, so every sorting algorithm gives this list. -/
def sortEdges {K : Type} [LinearOrder K] (E : List (WEdge K)) : List (WEdge K × ℕ) :=
  E.zipIdx.insertionSort fun a b => edgeLe a b = true

/-- `include/euclideanMst/kruskal.h:160-163` and `193-194`: the state before the loop, with union-find
array `P` and records `o`. -/
def kinit {K σ : Type} (IW : List (WEdge K × ℕ)) (n : ℕ) (P : List ℤ) (o : σ) : KSt σ :=
  { eu := IW.map fun e => (e.1.u : ℤ)
    ev := IW.map fun e => (e.1.v : ℤ)
    R := List.replicate n none
    P := P
    out := o }

/-- `parlay::pack_index` as used in `include/euclideanMst/kruskal.h:168`: positions of the true flags. -/
def packIndex (fl : List Bool) : List ℕ := (List.range fl.length).filter fun i => fl[i]? = some true

/-- `include/euclideanMst/kruskal.h:139-171` (`kruskal`), for an arbitrary granularity. -/
def kruskalG {K : Type} [LinearOrder K] (env : Env) (granularity : ℕ) (E : List (WEdge K)) (n : ℕ) :
    Except Err (List ℕ) :=
  let IW := sortEdges E
  (specFor reserve (commit (flagRec (IW.map (·.2)))) env IW.length granularity
    (kinit IW n (init n) (List.replicate IW.length false))).map fun s => packIndex s.out

/-- `include/euclideanMst/kruskal.h:139-171` (`kruskal`): line 166 fixes the granularity to 20. -/
def kruskal {K : Type} [LinearOrder K] (env : Env) (E : List (WEdge K)) (n : ℕ) :
    Except Err (List ℕ) :=
  kruskalG env 20 E n

/-- `include/spatialGraph/edge.h:36-47`: the stored form of an edge of `edgeUnionFind`; the constructor
of an undirected edge puts the smaller end first. -/
def orient {K : Type} (u v : ℕ) (w : K) : WEdge K := if u > v then ⟨v, u, w⟩ else ⟨u, v, w⟩

/-- `include/euclideanMst/kruskal.h:124-131` and `include/euclideanMst/unionFind.h:128-131`
(`edgeUnionFind::link`): store the original edge (from `EReal`) in the cell of the linked root. -/
def edgeRec {K : Type} (IW : List (WEdge K × ℕ)) : Recorder (List (Option (WEdge K))) :=
  fun es i x side => (rd IW i).bind fun e =>
    wr es x (some (if side then orient e.1.v e.1.u e.1.w else orient e.1.u e.1.v e.1.w))

/-- `include/euclideanMst/unionFind.h:96-107` (`edgeUnionFind`): parents and edges. -/
structure EdgeUF (K : Type) where
  P : List ℤ
  edges : List (Option (WEdge K))

/-- `include/euclideanMst/unionFind.h:104-107`: the constructor. -/
def EdgeUF.new {K : Type} (n : ℕ) : EdgeUF K := ⟨init n, List.replicate n none⟩

/-- `include/euclideanMst/unionFind.h:133-137` (`numEdge`). -/
def EdgeUF.numEdge {K : Type} (uf : EdgeUF K) : ℕ := uf.edges.countP Option.isSome

/-- `include/euclideanMst/unionFind.h:139-141` (`getEdge`). -/
def EdgeUF.getEdge {K : Type} (uf : EdgeUF K) : List (WEdge K) := uf.edges.filterMap id

/-- `include/euclideanMst/kruskal.h:173-196` (`batchKruskal`). -/
def batchKruskal {K : Type} [LinearOrder K] (env : Env) (E : List (WEdge K)) (n : ℕ) (uf : EdgeUF K) :
    Except Err (EdgeUF K) :=
  let IW := sortEdges E
  (specFor reserve (commit (edgeRec IW)) env IW.length 20 (kinit IW n uf.P uf.edges)).map fun s =>
    ⟨s.P, s.out⟩

end Verif.Mst
