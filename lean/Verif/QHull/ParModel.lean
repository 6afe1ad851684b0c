import Mathlib.Data.List.Sort
import Mathlib.Order.WithBot
import Mathlib.Order.OrderDual
import Verif.Par.Prog
import Verif.QHull.Model
import Verif.Reserve.Model

set_option linter.unusedSectionVars false
set_option linter.unusedVariables false

/-!
Model of the parallel quickhull in space: `include/convexHull3d/parallelQuickHull/*.h`, `include/convexHull3d/initialize.h`
(`initParallel`) and `src/convexHull3d/parallelQuickHull/hull.cpp`.

Facets and points are as in `Verif.QHull.Model`. A round of the parallel branch has three parallel loops that touch shared memory:
the reservations (priority writes, interleaved at single memory accesses as in `Verif.Reserve`), the check and the reset of the
reservations, and the changes of the surface by the successful apexes (interleaved at single reads and writes of facets).
Everything the run does not fix is in an `Oracle`.
-/

namespace Verif.QHull

open Verif Verif.Hull3d Verif.Par Verif.Reserve

variable {K : Type} [Field K] [LinearOrder K]

/-- A facet in memory: its fields and its `seeList` (`include/convexHull3d/parallelQuickHull/linkedFacet.h:50-64`). -/
abbrev Obj (K : Type) := Facet (P3 K) × List (Vtx K)

/-- A thread of the loop `include/convexHull3d/parallelQuickHull/quickHull.h:234-257`; it reads and writes facets. -/
abbrev OProg (K : Type) := Prog ℕ (Obj K)

/-- `include/convexHull3d/hullTopology.h:211-220` (`findFacet`) as a program. -/
def findP (v1 v2 : P3 K) : List ℕ → (ℕ → OProg K) → OProg K
  | [], _ => .abort
  | i :: F, k => .read i fun o => if hasEdge o.1 v1 v2 then k i else findP v1 v2 F k

/-- `include/convexHull3d/hullTopology.h:222-232` (`linkEdge`) as a program. -/
def linkEdgeP (f1 f2 : ℕ) (v1 v2 : P3 K) (k : OProg K) : OProg K :=
  .read f2 fun o =>
    if (o.1.a = v1 ∧ o.1.b = v2) ∨ (o.1.a = v2 ∧ o.1.b = v1) then .write f2 ({ o.1 with ab := some f1 }, o.2) k
    else if (o.1.b = v1 ∧ o.1.c = v2) ∨ (o.1.b = v2 ∧ o.1.c = v1) then .write f2 ({ o.1 with bc := some f1 }, o.2) k
    else if (o.1.c = v1 ∧ o.1.a = v2) ∨ (o.1.c = v2 ∧ o.1.a = v1) then .write f2 ({ o.1 with ca := some f1 }, o.2) k
    else .abort

/-- `include/convexHull3d/hullTopology.h:207-240` (`linkFacet` with three neighbours) as a program. -/
def linkP (f ab bc ca : ℕ) (k : OProg K) : OProg K :=
  .read f fun o => findP o.1.a o.1.b [ab, bc, ca] fun x => .write f ({ o.1 with ab := some x }, o.2) <|
    linkEdgeP f x o.1.a o.1.b <|
  .read f fun o => findP o.1.b o.1.c [ab, bc, ca] fun y => .write f ({ o.1 with bc := some y }, o.2) <|
    linkEdgeP f y o.1.b o.1.c <|
  .read f fun o => findP o.1.c o.1.a [ab, bc, ca] fun z => .write f ({ o.1 with ca := some z }, o.2) <|
    linkEdgeP f z o.1.c o.1.a k

/-- `include/convexHull3d/parallelQuickHull/quickHull.h:235-241`: create the new facets, in the cells from `i` on. -/
def allocP (eps : K) (apex : P3 K) : List (Edge K) → ℕ → OProg K → OProg K
  | [], _, k => k
  | e :: l, i, k => .write i (mkLinked eps e.a e.b apex, []) (allocP eps apex l (i + 1) k)

/-- `include/convexHull3d/parallelQuickHull/quickHull.h:243-250`: connect the new facets. `live` are the facets allocated when the
loop starts; none is deleted before it ends. -/
def linkAllP (live : List ℕ) (base : ℕ) (fr : List (Edge K)) : List ℕ → OProg K → OProg K
  | [], k => k
  | i :: l, k =>
    match fr[i]?.bind fun e => e.ff with
    | none => .abort
    | some j =>
      if j ∈ live then
        linkP (base + i) (base + (i + 1) % fr.length) j (base + (i + fr.length - 1) % fr.length) (linkAllP live base fr l k)
      else .abort

/-- `include/convexHull3d/parallelQuickHull/hullImpl.h:115-126`: the points of the facets to delete (`tmpBuffer`). The inner loop
is parallel over different entries. -/
def gatherP (live : List ℕ) : List ℕ → List (Vtx K) → (List (Vtx K) → OProg K) → OProg K
  | [], acc, k => k acc
  | i :: l, acc, k => if i ∈ live then .read i fun o => gatherP live l (acc ++ o.2) k else .abort

/-- `include/convexHull3d/parallelQuickHull/hullImpl.h:128-139`: the new facets are read for `keep`. -/
def readP : List ℕ → List (ℕ × Facet (P3 K)) → (List (ℕ × Facet (P3 K)) → OProg K) → OProg K
  | [], acc, k => k acc
  | i :: l, acc, k => .read i fun o => readP l (acc ++ [(i, o.1)]) k

/-- `include/convexHull3d/parallelQuickHull/hullImpl.h:128-141`: the points for which `j` is the first of the new facets `fs` that
keeps them, in their order in `tmpBuffer` (`parlay::split_k`, C11), with `seeFacet` set. -/
def chunk (eps : K) (fs : List (ℕ × Facet (P3 K))) (L : List (Vtx K)) (j : ℕ) : List (Vtx K) :=
  (L.filter fun u => decide ((fs.find? fun g => keep eps g.2 u.1).map Prod.fst = some j)).map fun u => (u.1, j)

/-- `include/convexHull3d/parallelQuickHull/hullImpl.h:141-144`: the new facets receive their points. -/
def reassignP (eps : K) (fs : List (ℕ × Facet (P3 K))) (L : List (Vtx K)) : List ℕ → OProg K → OProg K
  | [], k => k
  | j :: l, k => .read j fun o => .write j (o.1, chunk eps fs L j) (reassignP eps fs L l k)

/-- `include/convexHull3d/parallelQuickHull/quickHull.h:234-257`: one successful apex, with new cells from `base` on. The write of
`H` (252) and the addition to `hSize` (`hullImpl.h:108`) are in `parRound`. -/
def procP (eps : K) (live : List ℕ) (base : ℕ) (apex : P3 K) (fr : Fr K) : OProg K :=
  if fr.1 = [] then .abort
  else
    allocP eps apex fr.1 base <| linkAllP live base fr.1 (List.range fr.1.length) <| gatherP live fr.2 [] fun L =>
      readP (List.range' base fr.1.length) [] fun fs => reassignP eps fs L (List.range' base fr.1.length) .done

/-- What is not fixed by the program in a round: the addresses of facets, the order of `mapping`
(`include/convexHull3d/parallelQuickHull/hullImpl.h:239-288`), the order in which thread `t` reserves its facets, the interleavings
of the reservations and of the changes of the surface, and which thread writes `H` last. -/
structure Oracle (K : Type) where
  addr : ℕ → ℕ
  order : List (Vtx K) → List (Vtx K)
  arr : ℕ → List ℕ → List ℕ
  s1 : List ℕ
  s2 : List ℕ
  last : ℕ

/-- Values of `reservation` (`include/convexHull3d/parallelQuickHull/linkedFacet.h:63-72`): addresses, and the largest `size_t`,
`-1`, as `⊤`. The order is reversed, as `write_min` is used. -/
abbrev Res := (WithTop ℕ)ᵒᵈ

/-- `include/convexHull3d/parallelQuickHull/linkedFacet.h:130` (`reservation(-1)`). -/
def noRes : Res := OrderDual.toDual ⊤

/-- `parlay::unique` (external) on pointers, after the first element. Serves
`include/convexHull3d/parallelQuickHull/hullImpl.h` lines 355-380. -/
def uniqNFrom (prev : ℕ) : List ℕ → List ℕ
  | [] => []
  | q :: l => if q = prev then uniqNFrom q l else q :: uniqNFrom q l

/-- `parlay::unique` (external) on pointers. Serves
`include/convexHull3d/parallelQuickHull/hullImpl.h` lines 355-380. -/
def uniqN : List ℕ → List ℕ
  | [] => []
  | p :: l => p :: uniqNFrom p l

/-- `include/convexHull3d/parallelQuickHull/hullImpl.h:355-380`, `383-405`: the facets seen by the first `n` points of `mapping`,
sorted by address, without repetition. `mapping` lists the points that see a facet. -/
def seenFacets (o : Oracle K) (n : ℕ) (st : Hull K) : List ℕ :=
  uniqN ((((o.order (st.live.flatMap st.pts)).take n).map Prod.snd).insertionSort fun i j => o.addr i ≤ o.addr j)

/-- `include/convexHull3d/parallelQuickHull/linkedFacet.h:112-122` (`furthestParallel`): the first point of largest volume
(`parlay::max_element`, external); the end of an empty list is not to be dereferenced. -/
def furthestPar (f : Facet (P3 K)) : List (Vtx K) → Option (Vtx K)
  | [] => none
  | v :: l => match furthestPar f l with
    | none => some v
    | some u => if sv f.a f.b f.c v.1 < sv f.a f.b f.c u.1 then some u else some v

/-- `include/convexHull3d/parallelQuickHull/linkedFacet.h:124-127` (`randomApex`) with the hash function `hash`. -/
def randomPick (hash : ℕ → ℕ) (i : ℕ) (l : List (Vtx K)) : Option (Vtx K) := l[hash i % l.length]?

/-- How an apex is chosen from the `seeList` of a facet, with a seed. `quickHull.h:80-83, 155-158`: `fun _ f l => furthestPar f l`
or, if `randomized`, `fun i _ l => randomPick hash i l`. -/
abbrev Pick (K : Type) := ℕ → Facet (P3 K) → List (Vtx K) → Option (Vtx K)

/-- `include/convexHull3d/parallelQuickHull/hullImpl.h:523-535` (`confirmReservation`): the facets it looks at. -/
def checkCells (st : Hull K) : List ℕ → Except Err (List ℕ)
  | [] => .ok []
  | i :: l => (deref st (some i)).bind fun (_, f) => (deref st f.ab).bind fun (x, _) => (deref st f.bc).bind fun (y, _) =>
      (deref st f.ca).bind fun (z, _) => (checkCells st l).map fun r => i :: x :: y :: z :: r

/-- An apex with its frontier (`FE`, `FB` of `include/convexHull3d/parallelQuickHull/quickHull.h:168-180`). -/
abbrev Task (K : Type) := Vtx K × Fr K

/-- `include/convexHull3d/parallelQuickHull/quickHull.h:173-180`: who wants to reserve what. The order of a thread's own writes is
that of the oracle. -/
def contenders (o : Oracle K) (js : List (Task K)) : List (Contender Res) :=
  js.mapIdx fun t j => ⟨OrderDual.toDual (o.addr j.1.2 : WithTop ℕ), o.arr t (j.2.2 ++ j.2.1.filterMap fun e => e.ff)⟩

/-- The cells for new facets of the successful apexes (`include/convexHull3d/parallelQuickHull/quickHull.h:235-241`). -/
def withBase : ℕ → List (Task K) → List (ℕ × Task K)
  | _, [] => []
  | b, j :: l => (b, j) :: withBase (b + j.2.1.length) l

/-- The thread is through (`include/convexHull3d/parallelQuickHull/quickHull.h:234-257`). -/
def isDoneP : OProg K → Bool
  | .done => true
  | _ => false

/-- The thread failed (`include/convexHull3d/hullTopology.h:219, 230`, or a bad pointer). -/
def isAbortP : OProg K → Bool
  | .abort => true
  | _ => false

/-- Thread `t` has reservations to make (`include/convexHull3d/parallelQuickHull/quickHull.h:173-180`). -/
def reservingF (cs : List (Contender Res)) (s : RState Res) (t : ℕ) : Bool :=
  match cs[t]?, s.pc t with
  | some k, .load i => decide (i < k.cells.length)
  | some _, .cas _ _ => true
  | none, _ => false

/-- The memory of facets (`include/convexHull3d/parallelQuickHull/linkedFacet.h:50-64`). -/
def memOf (st : Hull K) : ℕ → Obj K := fun i => (st.heap i, st.pts i)

/-- A loop that computes one value per element (`parlay::tabulate` and the `parallel_for` loops of
`include/convexHull3d/parallelQuickHull/quickHull.h:173-215`, whose bodies write different entries). -/
def mapE {α β : Type} (f : α → Except Err β) : List α → Except Err (List β)
  | [] => .ok []
  | x :: l => (f x).bind fun y => (mapE f l).map fun r => y :: r

/-- `include/convexHull3d/parallelQuickHull/hullImpl.h:373-378`, `400-404`: one apex for each of the facets. -/
def apexes (pick : Pick K) (o : Oracle K) (n : ℕ) (st : Hull K) : Except Err (List (Vtx K)) :=
  mapE (fun x : ℕ × ℕ => (deref st (some x.1)).bind fun (_, f) =>
    match pick x.2 f (st.pts x.1) with
    | some v => .ok v
    | none => .error .ub) (seenFacets o n st).zipIdx

/-- `include/convexHull3d/parallelQuickHull/quickHull.h:173-180`: the frontiers; nobody changes the surface meanwhile. The
reservations are in `contenders`. -/
def tasks (eps : K) (fuel : ℕ) (st : Hull K) (vs : List (Vtx K)) : Except Err (List (Task K)) :=
  mapE (fun v : Vtx K => (computeFrontier eps fuel st v).map fun fr => (v, fr)) vs

/-- `include/convexHull3d/parallelQuickHull/quickHull.h:188-218`: the facets whose reservations each apex checks and resets. -/
def checks (o : Oracle K) (st : Hull K) (js : List (Task K)) : Except Err (List (Contender Res)) :=
  mapE (fun j : Task K => (checkCells st j.2.2).map fun c => ⟨OrderDual.toDual (o.addr j.1.2 : WithTop ℕ), c⟩) js

/-- `include/convexHull3d/parallelQuickHull/quickHull.h:187-222`: the successful apexes. -/
def winners (mem : ℕ → Res) (js : List (Task K)) (chk : List (Contender Res)) : List (Task K) :=
  ((js.zip chk).filter fun x => confirm x.2 mem && closedChain x.1.2.1).map Prod.fst

/-- `include/convexHull3d/parallelQuickHull/quickHull.h:198-213`: the points of the facet seen by an apex with a bad frontier are
dropped. -/
def dropBad (js : List (Task K)) (st : Hull K) : Hull K :=
  { st with pts := fun i => if i ∈ (js.filter fun j => !closedChain j.2.1).map fun j => j.1.2 then [] else st.pts i }

/-- `include/convexHull3d/parallelQuickHull/quickHull.h:234-277`: the successful apexes change the surface, along the interleaving
`o.s2`. All writers of `H` (252, a data race) write one of their values; the additions to `hSize` are atomic; deletions (269-277)
touch different cells. -/
def commit (eps : K) (o : Oracle K) (st : Hull K) (ws : List (Task K)) : Except Err (Hull K) :=
  let wb := withBase st.next ws
  let p := prun ⟨memOf st, fun t => match wb[t]? with
    | some w => procP eps st.live w.1 w.2.1.1 w.2.2
    | none => .done⟩ o.s2
  if (List.range wb.length).any (fun t => isAbortP (p.pc t)) then .error .ub
  else if (List.range wb.length).any (fun t => !isDoneP (p.pc t)) then .error .fuel
  else .ok ⟨fun i => (p.mem i).1,
    ((wb.reverse.flatMap fun w => List.range' w.1 w.2.2.1.length) ++ st.live).filter fun i =>
      decide (i ∉ ws.flatMap fun j => j.2.2),
    fun i => (p.mem i).2, st.next + (ws.map fun j => j.2.1.length).sum,
    match wb[o.last % wb.length]? with
    | some w => w.1
    | none => st.H,
    st.hSize + (ws.map fun j => j.2.1.length).sum - (ws.map fun j => j.2.2.length).sum⟩

/-- `include/convexHull3d/parallelQuickHull/quickHull.h:154-277`: a round of the parallel branch, after `updateMap`, on the surface
and the fields `reservation`. `n` is `numProc * 8`. -/
def parRound (eps : K) (fuel : ℕ) (pick : Pick K) (n : ℕ) (o : Oracle K) (st : Hull K) (res : ℕ → Res) :
    Except Err (Hull K × (ℕ → Res)) :=
  (apexes pick o n st).bind fun vs => (tasks eps fuel st vs).bind fun js =>
    let cs := contenders o js
    let r := o.s1.foldl (rstep cs) ⟨res, fun _ => .load 0⟩
    if (List.range cs.length).any (reservingF cs r) then .error .fuel
    else (checks o st js).bind fun chk =>
      (commit eps o (dropBad js st) (winners r.mem js chk)).map fun st' =>
        (st', fun c => if st.next ≤ c then noRes else wipe noRes r.mem (chk.flatMap fun k => k.cells) c)

/-- `include/convexHull3d/hullTopology.h:78-101` (`dfsFacet`) for visitors that accept every facet and a stopping test that may
fail. -/
def dfsFacetE {σ : Type} (st : Hull K) (fDo : σ → ℕ → Facet (P3 K) → Except Err σ) (fStop : σ → Except Err Bool) :
    ℕ → List (Option ℕ) → List ℕ → σ → Except Err σ
  | 0, _, _, _ => .error .fuel
  | _ + 1, [], _, s => .ok s
  | fuel + 1, p :: S, V, s =>
    (deref st p).bind fun (i, f) =>
      if i ∈ V then
        (fStop s).bind fun b => if b then .ok s else dfsFacetE st fDo fStop fuel S V s
      else
        (fDo s i f).bind fun s' => (fStop s').bind fun b =>
          if b then .ok s' else dfsFacetE st fDo fStop fuel (f.bc :: f.ca :: f.ab :: S) (i :: V) s'

/-- `include/convexHull3d/parallelQuickHull/hullImpl.h:147-157`, `407-417` (`furthestApexParallel`, `randomApex`). The pointer
`apex` starts null, and the stopping test `!apex->isEmpty()` follows it. A point whose first coordinate is the largest representable
number is not modelled. -/
def apexPar (pick : Pick K) (fuel : ℕ) (st : Hull K) (f : ℕ) : Except Err (Option (Vtx K)) :=
  dfsFacetE st (fun (s : Option (Vtx K)) i g =>
      if 0 < (st.pts i).length then
        match pick 0 g (st.pts i) with
        | some v => .ok (some v)
        | none => .error .ub
      else .ok s)
    (fun s => match s with
      | none => .error .ub
      | some _ => .ok true) fuel [some f] [] none

/-- `include/convexHull3d/parallelQuickHull/quickHull.h:38-288` (`quickHullParallel`), with at most `n` rounds; `o n` is the oracle of
the round with `n` left. In the serial branch `goto loopStart` (106) skips the test of `hSize`, which has not changed. `updateMap`
(153) returns the number of points that see a facet. The test at 280 never holds, as `M` is positive after `updateMap`. -/
def parLoop (eps : K) (fuel : ℕ) (pick : Pick K) (numProc : ℕ) (o : ℕ → Oracle K) :
    ℕ → Hull K → (ℕ → Res) → Except Err (Hull K)
  | 0, _, _ => .error .fuel
  | n + 1, st, res =>
    if st.hSize < 64 then
      (facetWalk fuel st).bind fun f0 => (apexPar pick fuel st f0).bind fun apex =>
        match apex with
        | none => .ok st
        | some v =>
          (computeFrontier eps fuel st v).bind fun fr =>
            if closedChain fr.1 then
              (round eps st v.1 fr).bind fun st' => parLoop eps fuel pick numProc o n st' fun c =>
                if st.next ≤ c ∧ c < st.next + fr.1.length then noRes else res c
            else parLoop eps fuel pick numProc o n { st with pts := Function.update st.pts v.2 [] } res
    else if st.live.flatMap st.pts = [] then .ok st
    else if seenFacets (o n) (numProc * 8) st = [] then .ok st
    else (parRound eps fuel pick (numProc * 8) (o n) st res).bind fun (st', res') => parLoop eps fuel pick numProc o n st' res'

/-- `src/convexHull3d/parallelQuickHull/hull.cpp:36-51` (`compute`), after a `numProc` of 0 is replaced by the number of workers
(`quickHull.h:44-45`). `initParallel` (`include/convexHull3d/initialize.h:131-238`) finds the same corners as `initSerial` (the
element functions of parlay, external, return the first extreme element) and gives every point to the first of the four facets that
keeps it, in the order of the input. -/
def parCompute (eps : K) (fuel : ℕ) (pick : Pick K) (numProc : ℕ) (o : ℕ → Oracle K) (P : List (P3 K)) :
    Except Err (List (IFacet K)) :=
  (initSerial eps P).bind fun (st, c) =>
    (parLoop eps fuel pick numProc o fuel st fun _ => noRes).bind fun st => getFacet fuel st c

end Verif.QHull
