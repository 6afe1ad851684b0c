import Verif.Delaunay.InsertModel
import Verif.Par.Prog

set_option linter.unusedSectionVars false
set_option linter.unusedVariables false

/-!
The insertions of `src/delaunayTriangulation/incremental/delaunay.cpp:130-152` as programs that make one memory access at
a time, in the order of the source. Coordinates are not written and not read here.
-/

namespace Verif.Delaunay

open Verif.Par

/-- `src/delaunayTriangulation/incremental/topology.h:50,51,81`: the cells `t->ngh[i]`, `t->vtx[i]`, `v->t`. -/
inductive Cell
  | ngh (t : ℕ) (i : Fin 3)
  | vtx (t : ℕ) (i : Fin 3)
  | vt (v : ℕ)
deriving DecidableEq

/-- `src/delaunayTriangulation/incremental/topology.h:50,51,81`: the mesh as memory; `none` is the null pointer. -/
def toMem (m : Mesh) : Cell → Option ℕ
  | .ngh t i => m.ngh t i
  | .vtx t i => some (m.vtx t i)
  | .vt v => some (m.vt v)

/-- A thread of `src/delaunayTriangulation/incremental/delaunay.cpp:276-277`. -/
abbrev MProg := Prog Cell (Option ℕ)

/-- Read a pointer that is not null, `src/delaunayTriangulation/incremental/topology.h:51,81`. -/
def readPtr (c : Cell) (k : ℕ → MProg) : MProg := .read c fun x => k (x.getD 0)

/-- `src/delaunayTriangulation/incremental/topology.h:59-66` (`locate`). -/
def locateP (a b : ℕ) (k : Fin 3 → MProg) : MProg :=
  .read (.ngh a 0) fun x => if x = some b then k 0 else
    .read (.ngh a 1) fun x => if x = some b then k 1 else
      .read (.ngh a 2) fun x => if x = some b then k 2 else .abort

/-- `src/delaunayTriangulation/incremental/topology.h:67-72` (`update`). -/
def updateP (a b c : ℕ) (k : MProg) : MProg := locateP a b fun i => .write (.ngh a i) (some c) k

/-- The conditional `if (a != NULL) a->update(b,c)` of `src/delaunayTriangulation/incremental/topology.h:182,188,203,204`. -/
def updateIfP (a : Option ℕ) (b c : ℕ) (k : MProg) : MProg :=
  match a with
  | none => k
  | some a => updateP a b c k

/-- `src/delaunayTriangulation/incremental/topology.h:135-139` (`across`). -/
def acrossP (s : Simplex) (k : Simplex → MProg) : MProg :=
  .read (.ngh s.t s.o) fun x => match x with
    | some u => locateP u s.t fun j => k ⟨u, j, false⟩
    | none => k ⟨s.t, s.o, true⟩

/-- `src/delaunayTriangulation/incremental/topology.h:169-190` (`flip`). -/
def flipP (s : Simplex) (k : MProg) : MProg :=
  acrossP s fun a =>
    let o1 := s.o + 1
    let os1 := a.o + 1
    .read (.ngh s.t o1) fun t1 => .read (.ngh a.t os1) fun t2 =>
    readPtr (.vtx s.t o1) fun v1 => readPtr (.vtx a.t os1) fun v2 =>
    readPtr (.vtx s.t s.o) fun u => .write (.vt u) (some a.t) <|
    .write (.vtx s.t s.o) (some v2) <|
    .write (.ngh s.t s.o) t2 <|
    updateIfP t2 a.t s.t <|
    .write (.ngh s.t o1) (some a.t) <|
    readPtr (.vtx a.t a.o) fun w => .write (.vt w) (some s.t) <|
    .write (.vtx a.t a.o) (some v1) <|
    .write (.ngh a.t a.o) t1 <|
    updateIfP t1 s.t a.t <|
    .write (.ngh a.t os1) (some s.t) k

/-- `src/delaunayTriangulation/incremental/topology.h:55-56` (`setT`). -/
def setTP (t : ℕ) (a b c : Option ℕ) (k : MProg) : MProg :=
  .write (.ngh t 0) a <| .write (.ngh t 1) b <| .write (.ngh t 2) c k

/-- `src/delaunayTriangulation/incremental/topology.h:57-58` (`setV`). -/
def setVP (t a b c : ℕ) (k : MProg) : MProg :=
  .write (.vtx t 0) (some a) <| .write (.vtx t 1) (some b) <| .write (.vtx t 2) (some c) k

/-- `src/delaunayTriangulation/incremental/topology.h:195-206` (`split`). -/
def splitP (t v ta0 ta1 : ℕ) (k : MProg) : MProg :=
  .write (.vt v) (some t) <|
  .read (.ngh t 0) fun _ => .read (.ngh t 1) fun t2 => .read (.ngh t 2) fun t3 =>
  readPtr (.vtx t 0) fun v1 => readPtr (.vtx t 1) fun v2 => readPtr (.vtx t 2) fun v3 =>
  .write (.ngh t 1) (some ta0) <|
  .write (.ngh t 2) (some ta1) <|
  .write (.vtx t 1) (some v) <|
  setTP ta0 t2 (some ta1) (some t) <|
  setVP ta0 v2 v v1 <|
  setTP ta1 t3 (some t) (some ta0) <|
  setVP ta1 v3 v v2 <|
  updateIfP t2 t ta0 <|
  updateIfP t3 t ta1 <|
  .write (.vt v2) (some ta0) k

/-- `src/delaunayTriangulation/incremental/delaunay.cpp:144-147`: the flips of `insert`. -/
def flipsP : List Simplex → MProg → MProg
  | [], k => k
  | s :: q, k => flipP s (flipsP q k)

/-- `src/delaunayTriangulation/incremental/delaunay.cpp:139-148`: what a winner does to the mesh. -/
def insertP (v t : ℕ) (q : List Simplex) : MProg :=
  readPtr (.vt v) fun t1 => splitP t v t1 (t1 + 1) (flipsP q .done)

end Verif.Delaunay
