import Verif.Outcome
import Mathlib.Data.Nat.Notation
import Mathlib.Data.Fin.Basic
import Mathlib.Logic.Function.Basic

set_option linter.unusedSectionVars false
set_option linter.unusedVariables false

/-!
Model of the triangle mesh of the incremental Delaunay triangulation,
`src/delaunayTriangulation/incremental/topology.h`.

Triangles and vertices are named by natural numbers (their slots in the arrays `Triangles` and `Vertices` of
`delaunay.cpp:315-321`) instead of addresses; `none` is the NULL pointer. The fields `id`, `initialized`, `bad`, `badT`,
`counter` are not read by the modelled routines and are left out; `reserve` is the subject of `Verif/Reserve`.
-/

namespace Verif.Delaunay

/-- `src/delaunayTriangulation/incremental/topology.h:47-51`: the three neighbours and the three vertices of a triangle;
`ngh i` lies across the edge from `vtx (i + 2)` to `vtx i`. -/
structure Tri where
  ngh : Fin 3 → Option ℕ
  vtx : Fin 3 → ℕ

/-- The memory behind the pointers: the triangles, and for each vertex its field `t`
(`src/delaunayTriangulation/incremental/topology.h:81`). -/
structure Mesh where
  tri : ℕ → Tri
  vt : ℕ → ℕ

namespace Mesh

/-- `src/delaunayTriangulation/incremental/topology.h:50`: read `t->ngh[i]`. -/
def ngh (m : Mesh) (t : ℕ) (i : Fin 3) : Option ℕ := (m.tri t).ngh i

/-- `src/delaunayTriangulation/incremental/topology.h:51`: read `t->vtx[i]`. -/
def vtx (m : Mesh) (t : ℕ) (i : Fin 3) : ℕ := (m.tri t).vtx i

/-- `src/delaunayTriangulation/incremental/topology.h:50`: the assignment `t->ngh[i] = x`. -/
def setNgh (m : Mesh) (t : ℕ) (i : Fin 3) (x : Option ℕ) : Mesh :=
  { m with tri := Function.update m.tri t { m.tri t with ngh := Function.update (m.tri t).ngh i x } }

/-- `src/delaunayTriangulation/incremental/topology.h:51`: the assignment `t->vtx[i] = v`. -/
def setVtx (m : Mesh) (t : ℕ) (i : Fin 3) (v : ℕ) : Mesh :=
  { m with tri := Function.update m.tri t { m.tri t with vtx := Function.update (m.tri t).vtx i v } }

/-- `src/delaunayTriangulation/incremental/topology.h:81`: the assignment `v->t = t`. -/
def setVt (m : Mesh) (v t : ℕ) : Mesh := { m with vt := Function.update m.vt v t }

/-- `src/delaunayTriangulation/incremental/topology.h:55-56` (`setT`). -/
def setT (m : Mesh) (t : ℕ) (a b c : Option ℕ) : Mesh := ((m.setNgh t 0 a).setNgh t 1 b).setNgh t 2 c

/-- `src/delaunayTriangulation/incremental/topology.h:57-58` (`setV`). -/
def setV (m : Mesh) (t : ℕ) (a b c : ℕ) : Mesh := ((m.setVtx t 0 a).setVtx t 1 b).setVtx t 2 c

/-- `src/delaunayTriangulation/incremental/topology.h:59-66` (`locate`): the first index whose neighbour pointer is `b`;
aborts if there is none. -/
def locate (m : Mesh) (a b : ℕ) : Except Err (Fin 3) :=
  if m.ngh a 0 = some b then .ok 0
  else if m.ngh a 1 = some b then .ok 1
  else if m.ngh a 2 = some b then .ok 2
  else .error .throws

/-- `src/delaunayTriangulation/incremental/topology.h:67-72` (`update`): overwrite the first pointer to `b` by `c`;
aborts if there is none. -/
def update (m : Mesh) (a b c : ℕ) : Except Err Mesh :=
  (m.locate a b).map fun i => m.setNgh a i (some c)

/-- The conditional `if (a != NULL) a->update(b,c)` of
`src/delaunayTriangulation/incremental/topology.h:182,188,203,204,221`. -/
def updateIf (m : Mesh) (a : Option ℕ) (b c : ℕ) : Except Err Mesh :=
  match a with
  | none => .ok m
  | some a => m.update a b c

end Mesh

/-- `src/delaunayTriangulation/incremental/topology.h:102-107`: an oriented triangle, or a boundary edge. `mod3` (95) is
the addition of `Fin 3`. -/
structure Simplex where
  t : ℕ
  o : Fin 3
  boundary : Bool
deriving DecidableEq

/-- `src/delaunayTriangulation/incremental/topology.h:142` (`rotClockwise`). -/
def Simplex.rot (s : Simplex) : Simplex := ⟨s.t, s.o + 1, false⟩

/-- `src/delaunayTriangulation/incremental/topology.h:135-139` (`across`). -/
def across (m : Mesh) (s : Simplex) : Except Err Simplex :=
  match m.ngh s.t s.o with
  | some u => (m.locate u s.t).map fun j => ⟨u, j, false⟩
  | none => .ok ⟨s.t, s.o, true⟩

/-- `src/delaunayTriangulation/incremental/topology.h:169-190` (`flip`). -/
def flip (m : Mesh) (s : Simplex) : Except Err Mesh :=
  (across m s).bind fun a =>
    let o1 := s.o + 1
    let os1 := a.o + 1
    let t1 := m.ngh s.t o1
    let t2 := m.ngh a.t os1
    let v1 := m.vtx s.t o1
    let v2 := m.vtx a.t os1
    let m := m.setVt (m.vtx s.t s.o) a.t
    let m := m.setVtx s.t s.o v2
    let m := m.setNgh s.t s.o t2
    (m.updateIf t2 a.t s.t).bind fun m =>
      let m := m.setNgh s.t o1 (some a.t)
      let m := m.setVt (m.vtx a.t a.o) s.t
      let m := m.setVtx a.t a.o v1
      let m := m.setNgh a.t a.o t1
      (m.updateIf t1 s.t a.t).map fun m => m.setNgh a.t os1 (some s.t)

/-- `src/delaunayTriangulation/incremental/topology.h:195-206` (`split`); the orientation of the simplex is not used. -/
def split (m : Mesh) (t v ta0 ta1 : ℕ) : Except Err Mesh :=
  let m := m.setVt v t
  let t2 := m.ngh t 1
  let t3 := m.ngh t 2
  let v1 := m.vtx t 0
  let v2 := m.vtx t 1
  let v3 := m.vtx t 2
  let m := m.setNgh t 1 (some ta0)
  let m := m.setNgh t 2 (some ta1)
  let m := m.setVtx t 1 v
  let m := m.setT ta0 t2 (some ta1) (some t)
  let m := m.setV ta0 v2 v v1
  let m := m.setT ta1 t3 (some t) (some ta0)
  let m := m.setV ta1 v3 v v2
  (m.updateIf t2 t ta0).bind fun m => (m.updateIf t3 t ta1).map fun m => m.setVt v2 ta0

/-- `src/delaunayTriangulation/incremental/topology.h:211-223` (`splitBoundary`). -/
def splitBoundary (m : Mesh) (s : Simplex) (v ta : ℕ) : Except Err Mesh :=
  let o1 := s.o + 1
  let o2 := s.o + 2
  if m.ngh s.t s.o ≠ none then .error .throws
  else
    let m := m.setVt v s.t
    let t2 := m.ngh s.t o2
    let v1 := m.vtx s.t o1
    let v2 := m.vtx s.t o2
    let m := m.setNgh s.t o2 (some ta)
    let m := m.setVtx s.t o2 v
    let m := m.setT ta t2 none (some s.t)
    let m := m.setV ta v2 v v1
    (m.updateIf t2 s.t ta).map fun m => m.setVt v2 s.t

/-- `src/delaunayTriangulation/incremental/topology.h:228-237` (`extend`). -/
def extend (m : Mesh) (s : Simplex) (v ta : ℕ) : Except Err (Mesh × Simplex) :=
  if m.ngh s.t s.o ≠ none then .error .throws
  else
    let m := m.setNgh s.t s.o (some ta)
    let m := m.setV ta (m.vtx s.t s.o) (m.vtx s.t (s.o + 2)) v
    let m := m.setT ta none (some s.t) none
    let m := m.setVt v ta
    .ok (m, ⟨ta, 0, false⟩)

/-- `src/delaunayTriangulation/incremental/topology.h:110-118`: the constructor `simplex(v1,v2,v3,tt)`. -/
def mkSimplex (m : Mesh) (v1 v2 v3 t : ℕ) : Mesh × Simplex :=
  let m := m.setT t none none none
  let m := (m.setVtx t 0 v1).setVt v1 t
  let m := (m.setVtx t 1 v2).setVt v2 t
  let m := (m.setVtx t 2 v3).setVt v3 t
  (m, ⟨t, 0, false⟩)

/-- `src/delaunayTriangulation/incremental/delaunay.cpp:216-219` (`generate_boundary`): a fan over the vertices `vs`,
its `j`-th extension using the slot `ts + 1 + j`. Fewer than three vertices would leave the array: undefined. The
positions of the vertices (196-214) are not computed here. -/
def boundaryFan (m : Mesh) (vs : List ℕ) (ts : ℕ) : Except Err Mesh :=
  match vs with
  | a :: b :: c :: rest =>
    let r := mkSimplex m a b c ts
    (rest.foldl (fun (acc : Except Err (Mesh × Simplex × ℕ)) v => acc.bind fun (x : Mesh × Simplex × ℕ) =>
      (extend x.1 x.2.1 v x.2.2).map fun y => (y.1, y.2, x.2.2 + 1)) (.ok (r.1, r.2, ts + 1))).map fun x => x.1
  | _ => .error .ub

end Verif.Delaunay
