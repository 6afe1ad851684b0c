import Mathlib.Logic.Function.Basic
import Verif.Hull2d.QuickModel
import Verif.Par.SplitModel

set_option linter.unusedSectionVars false
set_option linter.unusedVariables false

/-!
Model of `src/convexHull2d/randInc/hull.cpp`.

Vertices are positions in the array `V`; `pos` gives their coordinates. Facets are cells of a heap; a deleted cell is
`none` and reading it is undefined. `eps` is `pointT::eps`. Every iteration of a parallel loop is executed at once; the
order of the iterations is a parameter. The variable `H`, which only the code under `RAND_HULL_2D_VERBOSE` reads, keeps the
last facet written to it.
-/

namespace Verif.RandInc

open Verif Verif.Hull2d

variable {K : Type} [Field K] [LinearOrder K]

/-- `src/convexHull2d/randInc/hull.cpp:31-78` (`facet`). `token` is `none` for `-1`, otherwise the vertex whose address it
holds. -/
structure Fct where
  p1 : ℕ
  p2 : ℕ
  next : ℕ
  prev : ℕ
  token : Option ℕ
  seen : List ℕ

/-- `src/convexHull2d/randInc/hull.cpp:19-29,122,146-150`: the facets, the number of facets allocated so far, the `seeFacet` of
every vertex and the variable `H`. -/
structure St where
  heap : ℕ → Option Fct
  top : ℕ
  see : ℕ → Option ℕ
  H : ℕ

/-- Following a facet pointer (`src/convexHull2d/randInc/hull.cpp:85`). -/
def deref (h : ℕ → Option Fct) (i : ℕ) : Except Err Fct :=
  match h i with
  | some f => .ok f
  | none => .error .ub

/-- `src/convexHull2d/randInc/hull.cpp:74-76` (`visibleFrom`) and 35-40 (`triArea`). -/
def visible (eps : K) (pos : ℕ → Point K 2) (f : Fct) (p : ℕ) : Bool :=
  decide (eps < triArea (pos f.p1) (pos f.p2) (pos p))

/-- `src/convexHull2d/randInc/hull.cpp:85`: the loop that goes back. -/
def back (eps : K) (pos : ℕ → Point K 2) (h : ℕ → Option Fct) (p : ℕ) : ℕ → ℕ → Except Err ℕ
  | 0, _ => .error .fuel
  | fuel + 1, head => (deref h head).bind fun f => (deref h f.prev).bind fun g =>
      if visible eps pos g p then back eps pos h p fuel f.prev else .ok head

/-- `src/convexHull2d/randInc/hull.cpp:87-104`: the loop that goes forward; `start` is set iff `n > 0`. -/
def scan (eps : K) (pos : ℕ → Point K 2) (h : ℕ → Option Fct) (p head : ℕ) : ℕ → Option ℕ → ℕ → Except Err (Option (ℕ × ℕ))
  | 0, _, _ => .error .fuel
  | fuel + 1, start, ptr => (deref h ptr).bind fun f =>
      match start with
      | none =>
        let start' := if visible eps pos f p then some ptr else none
        if f.next = head then .ok none else scan eps pos h p head fuel start' f.next
      | some s =>
        if visible eps pos f p then if f.next = head then .ok none else scan eps pos h p head fuel (some s) f.next
        else .ok (some (s, ptr))

/-- `src/convexHull2d/randInc/hull.cpp:80-105` (`findVisible`). -/
def findVisible (eps : K) (pos : ℕ → Point K 2) (fuel : ℕ) (h : ℕ → Option Fct) (head p : ℕ) : Except Err (Option (ℕ × ℕ)) :=
  (back eps pos h p fuel head).bind fun head => scan eps pos h p head fuel none head

/-- `src/convexHull2d/randInc/hull.cpp:254,272,302`: `findVisible(v->seeFacet, *v)`; `seeFacet` is dereferenced. -/
def findFor (eps : K) (pos : ℕ → Point K 2) (s : St) (v : ℕ) : Except Err (Option (ℕ × ℕ)) :=
  match s.see v with
  | none => .error .ub
  | some head => findVisible eps pos (s.top + 1) s.heap head v

/-- `src/convexHull2d/randInc/hull.cpp:259-263,277-286,320-324,354-359`: the facets that a loop `do … while (ptr != stop)` visits.
The bodies do not change the pointers that the loop follows. -/
def walk (h : ℕ → Option Fct) (stop : ℕ) : ℕ → ℕ → Except Err (List ℕ)
  | 0, _ => .error .fuel
  | fuel + 1, ptr => (deref h ptr).bind fun f =>
      if f.next = stop then .ok [ptr] else (walk h stop fuel f.next).map fun l => ptr :: l

/-- `src/convexHull2d/randInc/hull.cpp:259-263,277-286`: the facets from `start->prev` to `end`. -/
def range (s : St) (start stop : ℕ) : Except Err (List ℕ) :=
  (deref s.heap start).bind fun f => (deref s.heap stop).bind fun g => walk s.heap g.next (s.top + 1) f.prev

/-- `src/convexHull2d/randInc/hull.cpp:52-55` (`reserve`). -/
def reserveTok (v : ℕ) (f : Fct) : Fct :=
  { f with token := match f.token with
      | none => some v
      | some w => some (min v w) }

/-- A write to one facet (`src/convexHull2d/randInc/hull.cpp:261,283,349-351`). -/
def modify (h : ℕ → Option Fct) (i : ℕ) (g : Fct → Fct) : Except Err (ℕ → Option Fct) :=
  (deref h i).map fun f => Function.update h i (some (g f))

/-- `src/convexHull2d/randInc/hull.cpp:253-265`: one iteration of the reservation loop. -/
def reserveOne (eps : K) (pos : ℕ → Point K 2) (s : St) (v : ℕ) : Except Err St :=
  (findFor eps pos s v).bind fun r =>
    match r with
    | none => .ok s
    | some (start, stop) => (range s start stop).bind fun ids =>
        (ids.foldlM (fun h i => modify h i (reserveTok v)) s.heap).map fun h => { s with heap := h }

/-- `src/convexHull2d/randInc/hull.cpp:57-60,280-284`: the test of one facet; the flag is `ok`. -/
def checkTok (v : ℕ) (a : Bool × (ℕ → Option Fct)) (i : ℕ) : Except Err (Bool × (ℕ → Option Fct)) :=
  (deref a.2 i).map fun f =>
    if f.token = some v then (a.1, Function.update a.2 i (some { f with token := none })) else (false, a.2)

/-- `src/convexHull2d/randInc/hull.cpp:271-291`: one iteration of the checking loop. The list collects the vertices whose entry
in `succ` is not null. -/
def checkOne (eps : K) (pos : ℕ → Point K 2) (a : St × List ℕ) (v : ℕ) : Except Err (St × List ℕ) :=
  (findFor eps pos a.1 v).bind fun r =>
    match r with
    | none => .ok a
    | some (start, stop) => (range a.1 start stop).bind fun ids =>
        (ids.foldlM (checkTok v) (true, a.1.heap)).map fun r =>
          ({ a.1 with heap := r.2 }, if r.1 then v :: a.2 else a.2)

/-- `src/convexHull2d/randInc/hull.cpp:329-341`: where the points of `Q` go. -/
def redistribute (eps : K) (pos : ℕ → Point K 2) (g1 g2 : Fct) (new1 new2 : ℕ) (Q : List ℕ) (see : ℕ → Option ℕ) : ℕ → Option ℕ :=
  fun q => if q ∈ Q then
      if visible eps pos g1 q then some new1 else if visible eps pos g2 q then some new2 else none
    else see q

/-- `src/convexHull2d/randInc/hull.cpp:301-361`: one iteration of the processing loop. `split_k` is taken from C11
(`c11_split_k`). The pointers of the new facets are not read before they are set; 0 stands for an unset one. -/
def processOne (eps : K) (pos : ℕ → Point K 2) (s : St) (v : ℕ) : Except Err St :=
  (findFor eps pos s v).bind fun r =>
    match r with
    | none => .ok s
    | some (start, stop) =>
      (deref s.heap start).bind fun fs => (deref s.heap stop).bind fun fe =>
        let new1 := s.top
        let new2 := s.top + 1
        let g1 : Fct := ⟨fs.p1, v, 0, 0, none, []⟩
        let g2 : Fct := ⟨v, fe.p1, 0, 0, none, []⟩
        let see := Function.update s.see v none
        (walk s.heap stop (s.top + 1) start).bind fun M =>
          (M.mapM fun i => (deref s.heap i).map fun f => f.seen).bind fun Q0 =>
            let Q := Q0.flatten
            let see := redistribute eps pos g1 g2 new1 new2 Q see
            let g1 := { g1 with seen := Q.filter fun q => visible eps pos g1 q }
            let g2 := { g2 with seen := Q.filter fun q => !visible eps pos g1 q && visible eps pos g2 q }
            let h := Function.update s.heap new1 (some { g1 with prev := fs.prev, next := new2 })
            let h := Function.update h new2 (some { g2 with prev := new1, next := stop })
            (modify h fs.prev fun f => { f with next := new1 }).bind fun h =>
              (modify h stop fun f => { f with prev := new2 }).bind fun h =>
                (walk h stop (s.top + 1) start).map fun M' =>
                  ⟨fun i => if i ∈ M' then none else h i, s.top + 2, see, new1⟩

/-- `src/convexHull2d/randInc/hull.cpp:210-234` (`packRemain`): the writes to `map2`; `flag[i]` counts the marked vertices
before position `i`. An entry of `map2` that is not written stays null and is dereferenced later. -/
def packRemain (see : ℕ → Option ℕ) (mapping : List ℕ) : Except Err (List ℕ) :=
  let flag := mapping.map fun v => if (see v).isSome then 1 else 0
  match Par.runWrites (flag.count 1) (Par.chunkWrites 0 1 0 (mapping.zip flag)) with
  | none => .error .ub
  | some l => l.mapM fun o =>
      match o with
      | some v => .ok v
      | none => .error .ub

/-- The orders of the iterations of the three parallel loops of every round
(`src/convexHull2d/randInc/hull.cpp:253,271,301`). -/
structure Ords where
  res : ℕ → List ℕ → List ℕ
  chk : ℕ → List ℕ → List ℕ
  prc : ℕ → List ℕ → List ℕ

/-- `src/convexHull2d/randInc/hull.cpp:249-363`: one round. -/
def round (eps : K) (pos : ℕ → Point K 2) (batch : ℕ) (o : Ords) (k : ℕ) (s : St) (mapping : List ℕ) :
    Except Err (St × List ℕ) :=
  let cur := mapping.take (min batch mapping.length)
  ((o.res k cur).foldlM (reserveOne eps pos) s).bind fun s =>
    ((o.chk k cur).foldlM (checkOne eps pos) (s, [])).bind fun a =>
      let succ := cur.filter fun v => v ∈ a.2
      ((o.prc k succ).foldlM (processOne eps pos) a.1).bind fun s =>
        (packRemain s.see mapping).map fun m => (s, m)

/-- `src/convexHull2d/randInc/hull.cpp:241-365`: the loop over the rounds. -/
def rounds (eps : K) (pos : ℕ → Point K 2) (batch : ℕ) (o : Ords) : ℕ → ℕ → St → List ℕ → Except Err St
  | 0, _, _, _ => .error .fuel
  | fuel + 1, k, s, mapping =>
    if 0 < mapping.length then
      (round eps pos batch o k s mapping).bind fun r => rounds eps pos batch o fuel (k + 1) r.1 r.2
    else .ok s

/-- `src/convexHull2d/randInc/hull.cpp:134-140`: the positions of the extreme vertices, found by `minmax_element`. -/
structure Ext where
  xMin : ℕ
  xMax : ℕ
  yMin : ℕ
  yMax : ℕ

/-- `src/convexHull2d/randInc/hull.cpp:144-147`: corners of the first four facets. -/
def corner (e : Ext) : ℕ → Fct
  | 0 => ⟨e.xMin, e.yMax, 1, 3, none, []⟩
  | 1 => ⟨e.yMax, e.xMax, 2, 0, none, []⟩
  | 2 => ⟨e.xMax, e.yMin, 3, 1, none, []⟩
  | _ => ⟨e.yMin, e.xMin, 0, 2, none, []⟩

/-- `src/convexHull2d/randInc/hull.cpp:158-176`: the flag of a vertex, 4 if it sees no facet. -/
def flag0 (eps : K) (pos : ℕ → Point K 2) (e : Ext) (v : ℕ) : ℕ :=
  if visible eps pos (corner e 0) v then 0
  else if visible eps pos (corner e 1) v then 1
  else if visible eps pos (corner e 2) v then 2
  else if visible eps pos (corner e 3) v then 3
  else 4

/-- `src/convexHull2d/randInc/hull.cpp:142-195`: the first four facets and their points; `split_k` is taken from C11. -/
def start (eps : K) (pos : ℕ → Point K 2) (e : Ext) (n : ℕ) : St :=
  ⟨fun i => if i < 4 then some { corner e i with seen := (List.range n).filter fun v => flag0 eps pos e v == i } else none, 4,
    fun v => if v < n ∧ flag0 eps pos e v < 4 then some (flag0 eps pos e v) else none, 0⟩

/-- `src/convexHull2d/randInc/hull.cpp:238-239`, without overflow of `size_t`. -/
def batchOf (numProc workers : ℕ) : ℕ := (if numProc = 0 then workers else numProc) * 4

/-- `src/convexHull2d/randInc/hull.cpp:107-378` (`compute`) up to the ring of facets that it builds. The minimum of an empty array is
dereferenced. -/
def ring (eps : K) (workers numProc : ℕ) (o : Ords) (ext : List (Point K 2) → Ext) (P : List (Point K 2)) : Except Err St :=
  if P = [] then .error .ub
  else
    let pos : ℕ → Point K 2 := fun i => P.getD i 0
    let s := start eps pos (ext P) P.length
    (packRemain s.see (List.range P.length)).bind fun mapping =>
      rounds eps pos (batchOf numProc workers) o (P.length + 1) 0 s mapping

/-- `src/convexHull2d/randInc/hull.cpp:107-381` (`compute`). -/
def compute (eps : K) (workers numProc : ℕ) (o : Ords) (ext : List (Point K 2) → Ext) (P : List (Point K 2)) : Except Err (List ℕ) :=
  (ring eps workers numProc o ext P).map fun _ => []

end Verif.RandInc
