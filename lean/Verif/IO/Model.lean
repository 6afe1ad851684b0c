import Verif.Outcome
import Mathlib.Data.List.Basic
import Mathlib.Data.Nat.Digits.Defs

set_option linter.unusedSectionVars false
set_option linter.unusedVariables false

/-!
Model of reading and writing text files: `include/pargeo/IO.h`, `include/pargeo/pointIO.h` and
`include/pargeo/graphIO.h`. Characters are Lean characters; the character 0 is `nul`. A file is the list of
its characters.
-/

namespace Verif.IO

/-- The character 0. Serves
`include/pargeo/IO.h` lines 37-43. -/
def nul : Char := Char.ofNat 0

/-- `include/pargeo/IO.h:37-43` (`is_newline`). -/
def isNewline (c : Char) : Bool := c == '\r' || c == '\n'

/-- `include/pargeo/IO.h:45-53` (`is_delim`). -/
def isDelim (c : Char) : Bool := c == '\t' || c == ';' || c == ',' || c == ' '

/-- `include/pargeo/IO.h:55-57` (`is_space`). -/
def isSpace (c : Char) : Bool := isNewline c || isDelim c || c == nul

/-- `include/pargeo/IO.h:59-77` (`is_number`). -/
def isNumber (c : Char) : Bool :=
  c == '0' || c == '1' || c == '2' || c == '3' || c == '4' || c == '5' || c == '6' || c == '7' || c == '8' ||
    c == '9' || c == '.' || c == '+' || c == '-' || c == 'e'

/-! ### Splitting into words -/

/-- `include/pargeo/IO.h:85-86`: overwrite separators with 0. -/
def zeroSpaces (S : List Char) : List Char := S.map fun c => if isSpace c then nul else c

/-- `include/pargeo/IO.h:89-90`: is there a start of a word at `i`? -/
def startFlag (Z : List Char) (i : ℕ) : Bool :=
  if i = 0 then Z.getD 0 nul != nul else Z.getD i nul != nul && Z.getD (i - 1) nul == nul

/-- `include/pargeo/IO.h:93` (`pack_index`): the starts of the words. -/
def offsets (Z : List Char) : List ℕ := (List.range Z.length).filter (startFlag Z)

/-- `include/pargeo/IO.h:81-100` (`stringToWords`): the changed text and the starts of the words. The pointers
are modelled as offsets. -/
def stringToWords (S : List Char) : List Char × List ℕ := (zeroSpaces S, offsets (zeroSpaces S))

/-- The C string that starts at an offset, up to the next 0 or the end of the array. Serves
`include/pargeo/IO.h` lines 106-122. -/
def textAt (Z : List Char) (o : ℕ) : List Char := (Z.drop o).takeWhile fun c => c != nul

/-- Reading a C string: it must be terminated inside the array. Serves
`include/pargeo/IO.h` lines 106-122. -/
def readText (Z : List Char) (o : ℕ) : Except Err (List Char) :=
  if o + (textAt Z o).length < Z.length then .ok (textAt Z o) else .error .ub

/-! ### Printing -/

/-- How values of a type are printed: `len` is `xToStringLen`, `put` are the writes of `xToString`, in order,
relative to the start. Serves
`include/pargeo/IO.h` lines 106-122. -/
structure Printer (A : Type) where
  len : A → ℕ
  put : A → List (ℕ × Char)

/-- Writes moved by an offset. Serves
`include/pargeo/IO.h` lines 106-122. -/
def shift (o : ℕ) (ws : List (ℕ × Char)) : List (ℕ × Char) := ws.map fun w => (o + w.1, w.2)

/-- `include/pargeo/IO.h:106-122`: `sprintf` of a value with text `text` into a slot of fixed size; `sprintf`
writes a final 0. -/
def scalar {A : Type} (text : A → List Char) (slot : A → ℕ) : Printer A where
  len := slot
  put := fun a => ((text a).zipIdx.map fun x => (x.2, x.1)) ++ [((text a).length, nul)]

/-- `include/pargeo/IO.h:124-136`: pairs. -/
def pairP {A B : Type} (p : Printer A) (q : Printer B) : Printer (A × B) where
  len := fun a => p.len a.1 + q.len a.2 + 1
  put := fun a => p.put a.1 ++ (p.len a.1, ' ') :: shift (p.len a.1 + 1) (q.put a.2)

/-- `include/pargeo/IO.h:138-157`: coordinates of a point, given as a list, separated by `sep`. -/
def coordsPut {A : Type} (p : Printer A) (sep : Char) : List A → List (ℕ × Char)
  | [] => []
  | [x] => p.put x
  | x :: y :: l => p.put x ++ (p.len x, sep) :: shift (p.len x + 1) (coordsPut p sep (y :: l))

/-- `include/pargeo/IO.h:138-157`: points. -/
def pointP {A : Type} (p : Printer A) (sep : Char) : Printer (List A) where
  len := fun l => (l.map p.len).sum + l.length - 1
  put := coordsPut p sep

/-- One write into the text array. Serves
`include/pargeo/IO.h` lines 162-166. -/
def write1 (B : List Char) (w : ℕ × Char) : Except Err (List Char) :=
  if w.1 < B.length then .ok (B.set w.1 w.2) else .error .ub

/-- Several writes in sequence. Serves
`include/pargeo/IO.h` lines 162-166. -/
def writeAll (B : List Char) : List (ℕ × Char) → Except Err (List Char)
  | [] => .ok B
  | w :: ws => (write1 B w).bind fun B => writeAll B ws

/-- `include/pargeo/IO.h:162-166`: start of slot `i`. -/
def slotStart {A : Type} (p : Printer A) (L : List A) (i : ℕ) : ℕ :=
  ((L.take i).map fun x => p.len x + 1).sum

/-- `include/pargeo/IO.h:171-174`: the writes of iteration `i` of the parallel loop. The separator is a newline
there; `include/pargeo/graphIO.h:60-67` and 142-148 use the same scheme with blanks inside an edge. -/
def task {A : Type} (p : Printer A) (sep : ℕ → Char) (L : List A) (i : ℕ) : List (ℕ × Char) :=
  match L[i]? with
  | none => []
  | some a => shift (slotStart p L i) (p.put a) ++ [(slotStart p L (i + 1) - 1, sep i)]

/-- A tagged list of writes is an execution of `n` parallel tasks if every task makes its writes in its own
order. Serves
`include/pargeo/IO.h` lines 159-180. -/
def IsShuffle (tasks : ℕ → List (ℕ × Char)) (n : ℕ) (W : List (ℕ × (ℕ × Char))) : Prop :=
  (∀ w ∈ W, w.1 < n) ∧ ∀ t < n, (W.filter fun w => w.1 == t).map (fun w => w.2) = tasks t

/-- `include/pargeo/IO.h:159-180` (`seqToString`); `W` is the execution of the parallel loop (171-174). With no
element the loop bound `n - 1` wraps around: undefined. The same function with other separators is `edgeSeqToString` (`include/pargeo/graphIO.h:122-157`) and
`wghEdgeSeqToString` (32-83), whose parallel iterations write one edge each; this is one of the schedules. -/
def seqToString {A : Type} (p : Printer A) (sep : ℕ → Char) (L : List A) (W : List (ℕ × (ℕ × Char))) :
    Except Err (List Char) :=
  match L.getLast? with
  | none => .error .ub
  | some a =>
    let m := slotStart p L L.length
    (writeAll (List.replicate (m + 1) nul) (W.map fun w => w.2)).bind fun B =>
    (writeAll B (shift (slotStart p L (L.length - 1)) (p.put a) ++ [(m - 1, '\n'), (m, '\n')])).bind fun B =>
      let C := B.filter fun c => c != nul
      if C = [] then .error .ub else .ok (C.set (C.length - 1) nul)

/-- The executions of a sequential loop (one possible schedule). Serves
`include/pargeo/IO.h` lines 182-194. -/
def seqTasks (tasks : ℕ → List (ℕ × Char)) (n : ℕ) : List (ℕ × (ℕ × Char)) :=
  (List.range n).flatMap fun t => (tasks t).map fun w => (t, w)

/-- Chunks of at most `b` elements. Serves
`include/pargeo/IO.h` lines 182-194. -/
def chunks {A : Type} (b : ℕ) : ℕ → List A → List (List A)
  | 0, _ => []
  | fuel + 1, L => if L = [] then [] else L.take b :: chunks b fuel (L.drop b)

/-- `include/pargeo/IO.h:182-194` (`writeSeqToStream`) with chunk size `b` (10000000 in the code): the
characters appended to the file. `sched c` is the execution of the parallel loop for chunk `c`. -/
def writeSeq {A : Type} (p : Printer A) (sep : ℕ → Char) (sched : List A → List (ℕ × (ℕ × Char))) :
    List (List A) → Except Err (List Char)
  | [] => .ok []
  | c :: cs => (seqToString p sep c (sched c)).bind fun S => (writeSeq p sep sched cs).map fun R => S.dropLast ++ R

/-- `include/pargeo/IO.h:196-213` (`writeSeqToFile`): the file. It reads `A[0]` first. -/
def writeSeqToFile {A : Type} (p : Printer A) (b : ℕ) (sched : List A → List (ℕ × (ℕ × Char)))
    (header : List Char) (L : List A) : Except Err (List Char) :=
  if L = [] then .error .ub
  else (writeSeq p (fun _ => '\n') sched (chunks b L.length L)).map fun R =>
    (if header = [] then [] else header ++ ['\n']) ++ R

/-! ### Numbers -/

/-- A decimal digit. Serves
`include/pargeo/IO.h` lines 106-107. -/
def digitChar (n : ℕ) : Char := Char.ofNat (48 + n)

/-- `%lu`: decimal digits of a natural number. Serves
`include/pargeo/IO.h` lines 106-107. -/
def natText (n : ℕ) : List Char :=
  if n = 0 then ['0'] else ((Nat.digits 10 n).map digitChar).reverse

/-- `%ld`: decimal digits with a sign if negative. Serves
`include/pargeo/IO.h` lines 106-107. -/
def intText (z : ℤ) : List Char := if z < 0 then '-' :: natText z.natAbs else natText z.natAbs

/-- `include/pargeo/IO.h:106-107`: `long` in a slot of 21. -/
def longP : Printer ℤ := scalar intText fun _ => 21

/-- Value of a digit character. Serves
`include/pargeo/IO.h` lines 244. -/
def digitVal (c : Char) : ℕ := c.toNat - 48

/-- Value of a string of digits. Serves
`include/pargeo/IO.h` lines 244. -/
def natVal (s : List Char) : ℕ := s.foldl (fun v c => v * 10 + digitVal c) 0

/-- `parlay::chars_to_long` (library, by its documented behaviour): sign and digits. Serves
`include/pargeo/IO.h` lines 244. -/
def charsToLong : List Char → ℤ
  | '-' :: s => -(natVal s : ℤ)
  | s => natVal s

/-- Specification of splitting: the maximal runs of characters that are not separators. Serves
`include/pargeo/IO.h` lines 249-254. -/
def wordsOf (S : List Char) : List (List Char) := (S.splitOnP isSpace).filter fun w => w != []

/-- `include/pargeo/IO.h:244`: the header of integer files. -/
def intHeader : List Char := "sequenceInt".toList

/-- `include/pargeo/IO.h:260-270` (`readIntSeqFromFile`); `parlay::tokens` (library, line 256) is taken by its
documented behaviour, the maximal runs of non-separators. -/
def readIntSeq (S : List Char) : Except Err (List ℤ) :=
  match wordsOf S with
  | [] => .error .ub
  | h :: W => if h = intHeader then .ok (W.map charsToLong) else .error .throws

/-- A number as printed by `%.11le`: sign, one digit, eleven digits, sign and digits of the exponent (C prints
at least two exponent digits, three if the exponent needs them). Serves
`include/pargeo/IO.h` lines 118-119. -/
structure Sci where
  neg : Bool
  lead : ℕ
  frac : List ℕ
  expNeg : Bool
  exp : List ℕ
deriving DecidableEq

/-- Number of digits as `sprintf` prints them for finite doubles. Serves
`include/pargeo/IO.h` lines 118-119. -/
def Sci.Ok (s : Sci) : Prop :=
  s.lead < 10 ∧ s.frac.length = 11 ∧ (∀ x ∈ s.frac, x < 10) ∧ (∀ x ∈ s.exp, x < 10) ∧
    (s.exp.length = 2 ∨ s.exp.length = 3)

/-- Text of `%.11le`. Serves
`include/pargeo/IO.h` lines 118-119. -/
def Sci.text (s : Sci) : List Char :=
  (if s.neg then ['-'] else []) ++ digitChar s.lead :: '.' :: (s.frac.map digitChar ++
    'e' :: (if s.expNeg then '-' else '+') :: s.exp.map digitChar)

/-- `include/pargeo/IO.h:118-119`: `double` in a slot of 18. -/
def doubleP : Printer Sci := scalar Sci.text fun _ => 18

/-! ### Points -/

/-- `include/pargeo/pointIO.h:32-37` (`pbbsHeader`): throws unless 2 ≤ dim ≤ 9. -/
def pbbsHeader (dim : ℕ) : Except Err (List Char) :=
  if dim < 2 ∨ 9 < dim then .error .throws
  else .ok ("pbbs_sequencePoint".toList ++ [digitChar dim] ++ ['d'])

/-- `include/pargeo/pointIO.h:39-44` (`isGenericHeader`). -/
def isGenericHeader (w : List Char) : Bool := w.any fun c => !isNumber c && !isDelim c

/-- `include/pargeo/pointIO.h:46-59` (`countEntry`): removes separators at the end, then counts separators.
A line of separators only makes it read the end of an empty string. -/
def countEntry (line : List Char) : Except Err ℕ :=
  let l := (line.reverse.dropWhile fun c => isDelim c || isSpace c || isNewline c).reverse
  if l = [] then .error .ub else .ok (l.countP isDelim + 1)

/-- Line `n` of a file (`std::getline`). -/
def lineAt (S : List Char) (n : ℕ) : List Char := (S.splitOnP (· == '\n')).getD n []

/-- `include/pargeo/pointIO.h:62-74` (`readHeader`): the dimension. -/
def readHeader (S : List Char) : Except Err ℕ :=
  if isGenericHeader (lineAt S 0) then countEntry (lineAt S 1) else countEntry (lineAt S 0)

/-- `include/pargeo/pointIO.h:95-105` (`parsePoints`): groups of `d` words; words that do not fill a group are
dropped. `atof` is the library function. -/
def groups {A : Type} (d : ℕ) : ℕ → List A → List (List A)
  | 0, _ => []
  | n + 1, W => W.take d :: groups d n (W.drop d)

/-- `include/pargeo/pointIO.h:95-105` (`parsePoints`). -/
def parsePoints {F : Type} (atof : List Char → F) (d : ℕ) (W : List (List Char)) : List (List F) :=
  groups d (W.length / d) (W.map atof)

/-- `include/pargeo/pointIO.h:107-119` (`readPointsFromFile`). -/
def readPoints {F : Type} (atof : List Char → F) (d : ℕ) (S : List Char) : Except Err (List (List F)) :=
  let Z := stringToWords S
  match Z.2 with
  | [] => .error .throws
  | _ :: _ => (Z.2.mapM (readText Z.1)).map fun W =>
    if isGenericHeader (W.headD []) then parsePoints atof d (W.drop 1) else parsePoints atof d W

end Verif.IO
