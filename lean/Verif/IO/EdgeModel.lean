import Verif.IO.Model

set_option linter.unusedSectionVars false
set_option linter.unusedVariables false

/-!
Edge-list files: `include/pargeo/graphIO.h`.
-/

namespace Verif.IO

/-- `include/pargeo/graphIO.h:18-19`: `unsigned long` in a slot of 21. -/
def vertexP : Printer ℕ := scalar natText fun _ => 21

/-- `include/pargeo/graphIO.h:21-22`: `double` in a slot of 18. -/
def weightP : Printer Sci := scalar Sci.text fun _ => 18

/-- `include/pargeo/graphIO.h:143-146`: what follows number `i`. -/
def edgeSep (i : ℕ) : Char := if i % 2 = 1 then '\n' else ' '

/-- `include/pargeo/graphIO.h:124-128`: the array of end points. The iterations of the loop write different places. -/
def endPoints (E : List (ℕ × ℕ)) : List ℕ := E.flatMap fun e => [e.1, e.2]

/-- `include/pargeo/graphIO.h:122-156` (`edgeSeqToString`); `W` is the execution of the parallel loop (141-147). -/
def edgeSeqToString (E : List (ℕ × ℕ)) (W : List (ℕ × (ℕ × Char))) : Except Err (List Char) :=
  seqToString vertexP edgeSep (endPoints E) W

/-- `include/pargeo/graphIO.h:54-67`: a weighted edge, the two end points and the weight separated by blanks. -/
def wghEdgeP : Printer ((ℕ × ℕ) × Sci) := pairP (pairP vertexP vertexP) weightP

/-- `include/pargeo/graphIO.h:32-79` (`wghEdgeSeqToString`); `W` is the execution of the parallel loop (60-67). -/
def wghEdgeSeqToString (E : List ((ℕ × ℕ) × Sci)) (W : List (ℕ × (ℕ × Char))) : Except Err (List Char) :=
  seqToString wghEdgeP (fun _ => '\n') E W

/-- `include/pargeo/graphIO.h:81-93` and 158-170 (`writeWghEdgeSeqToStream`, `writeEdgeSeqToStream`): the characters appended, chunk
after chunk; the last character of the string is not written. -/
def writeChunks {A : Type} (str : List A → Except Err (List Char)) : List (List A) → Except Err (List Char)
  | [] => .ok []
  | c :: cs => (str c).bind fun S => (writeChunks str cs).map fun R => S.dropLast ++ R

/-- `include/pargeo/graphIO.h:172-195` (`writeEdgeSeqToFile`): the file, without a header. It reads `A[0]` first. `b` is the size of
a chunk (10000000), `sched c` the execution of the loop for chunk `c`. That the file can be opened is assumed. -/
def writeEdges (b : ℕ) (sched : List (ℕ × ℕ) → List (ℕ × (ℕ × Char))) (E : List (ℕ × ℕ)) : Except Err (List Char) :=
  if E = [] then .error .ub else writeChunks (fun c => edgeSeqToString c (sched c)) (chunks b E.length E)

/-- `include/pargeo/graphIO.h:95-118` (`writeWghEdgeSeqToFile`). -/
def writeWghEdges (b : ℕ) (sched : List ((ℕ × ℕ) × Sci) → List (ℕ × (ℕ × Char))) (E : List ((ℕ × ℕ) × Sci)) :
    Except Err (List Char) :=
  if E = [] then .error .ub else writeChunks (fun c => wghEdgeSeqToString c (sched c)) (chunks b E.length E)

end Verif.IO
