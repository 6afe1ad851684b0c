import Verif.Outcome
import Verif.Par.SplitModel

/-!
Model of the per-worker growing buffers in `include/pargeo/parBuffer.h`.
-/

namespace Verif.Par

variable {β : Type}

/-- `include/pargeo/parBuffer.h:27-41` (`parBuf`). `arrs` are the arrays `m_parent[0..m_parentUsed-1]`
(the last one is `m_arr`), with `none` for uninitialised cells; `sizes` is the whole allocation of
`m_parentSizes`; `parentCap` is the number of pointers that fit in the allocation of `m_parent`. -/
structure ParBuf (β : Type) where
  arrs : List (List (Option β))
  sizes : List (Option ℕ)
  parentCap : ℕ
  parentTotal : ℕ
  currentSize : ℕ
  count : ℕ

/-- `include/pargeo/parBuffer.h:43-56`: the constructor. -/
def ParBuf.new (initSize : ℕ) : ParBuf β :=
  { arrs := [List.replicate initSize none]
    sizes := (List.replicate 11 none).set 0 (some initSize)
    parentCap := 10
    parentTotal := 10
    currentSize := initSize
    count := 0 }

/-- `include/pargeo/parBuffer.h:58-67` (`size`); reading an uninitialised or missing entry of
`m_parentSizes` is undefined. -/
def ParBuf.size (b : ParBuf β) : Except Err ℕ :=
  match (b.sizes.take (b.arrs.length - 1)).mapM id with
  | none => .error .ub
  | some l => if l.length = b.arrs.length - 1 then .ok (l.sum + b.count) else .error .ub

/-- `include/pargeo/parBuffer.h:87-89` (`finalize`). -/
def ParBuf.finalize (b : ParBuf β) : Except Err (ParBuf β) :=
  if b.arrs.length - 1 < b.sizes.length then
    .ok { b with sizes := b.sizes.set (b.arrs.length - 1) (some b.count) }
  else .error .ub

/-- `include/pargeo/parBuffer.h:69-85` (`incrementParent`) up to the increment of `m_parentUsed`. The
new pointer array is allocated with `sizeof(T)` instead of `sizeof(T*)` bytes per entry; `szT` and
`szPtr` are these sizes. -/
def ParBuf.growParent (szT szPtr : ℕ) (b : ParBuf β) : Except Err (ParBuf β) :=
  let cap := szT * b.parentTotal * 2 / szPtr
  if b.arrs.length ≤ cap ∧ b.arrs.length ≤ b.sizes.length ∧
      b.arrs.length ≤ b.parentTotal * 2 + 1 then
    .ok { b with
      sizes := b.sizes.take b.arrs.length ++
        List.replicate (b.parentTotal * 2 + 1 - b.arrs.length) none
      parentCap := cap
      parentTotal := b.parentTotal * 2 }
  else .error .ub

/-- `include/pargeo/parBuffer.h:99-103`: make room for one more pointer in `m_parent` if needed. -/
def ParBuf.ensureParent (szT szPtr : ℕ) (b : ParBuf β) : Except Err (ParBuf β) :=
  if b.arrs.length < b.parentTotal then .ok b else b.growParent szT szPtr

/-- `include/pargeo/parBuffer.h:97-108`: append a new array of twice the size. -/
def ParBuf.addArray (b : ParBuf β) : Except Err (ParBuf β) :=
  if b.arrs.length < b.parentCap then
    .ok { b with
      arrs := b.arrs ++ [List.replicate (b.currentSize * 2) none]
      count := 0
      currentSize := b.currentSize * 2 }
  else .error .ub

/-- `include/pargeo/parBuffer.h:92-108`: the growing part of `increment`. -/
def ParBuf.grow (szT szPtr : ℕ) (b : ParBuf β) : Except Err (ParBuf β) :=
  if b.count + 1 > b.currentSize then
    (b.finalize.bind (ParBuf.ensureParent szT szPtr)).bind ParBuf.addArray
  else .ok b

/-- `include/pargeo/parBuffer.h:109`: `m_arr + (m_count++)`, followed by the write of the caller
through the returned pointer (for example `include/kdTree/wspdImpl.h:170-173`). -/
def ParBuf.write (b : ParBuf β) (x : β) : Except Err (ParBuf β) :=
  match b.arrs.getLast? with
  | none => .error .ub
  | some a =>
    if b.count < a.length then
      .ok { b with arrs := b.arrs.dropLast ++ [a.set b.count (some x)], count := b.count + 1 }
    else .error .ub

/-- `include/pargeo/parBuffer.h:91-110` (`increment`) and the write of the caller. -/
def ParBuf.push (szT szPtr : ℕ) (b : ParBuf β) (x : β) : Except Err (ParBuf β) :=
  (b.grow szT szPtr).bind fun b' => b'.write x

/-- `include/pargeo/parBuffer.h:121-129,149-150` (`prefixSumSerial` and the store of the total in the
extra slot): exclusive prefix sums followed by the total. -/
def prefixSums : ℕ → List ℕ → List ℕ
  | acc, [] => [acc]
  | acc, x :: l => acc :: prefixSums (acc + x) l

/-- `include/pargeo/parBuffer.h:152-154`: the writes copying the first `len` cells of one array to
position `off` on; an uninitialised cell would be an undefined read. -/
def arrayWrites (off : ℕ) : ℕ → List (Option β) → Except Err (List (ℕ × β))
  | 0, _ => .ok []
  | _ + 1, [] => .error .ub
  | _ + 1, none :: _ => .error .ub
  | n + 1, some x :: l => (arrayWrites (off + 1) n l).map ((off, x) :: ·)

/-- `include/pargeo/parBuffer.h:152-155`: the writes of all arrays of a buffer, from the prefix sums
of the array sizes. -/
def arraysWrites (off : ℕ) : List ℕ → List (List (Option β)) → Except Err (List (ℕ × β))
  | s :: t :: sums, a :: as => (arrayWrites (off + s) (t - s) a).bind fun w =>
      (arraysWrites off (t :: sums) as).map (w ++ ·)
  | [_], [] => .ok []
  | _, _ => .error .ub

/-- `include/pargeo/parBuffer.h:147-155`: the copy of one (finalized) buffer to offset `off`.
The total of the prefix sums is stored at index `m_parentUsed`. -/
def ParBuf.copy (off : ℕ) (b : ParBuf β) : Except Err (List (ℕ × β)) :=
  if b.arrs.length < b.sizes.length then
    match (b.sizes.take b.arrs.length).mapM id with
    | none => .error .ub
    | some lens => arraysWrites off (prefixSums 0 lens) b.arrs
  else .error .ub

/-- `include/pargeo/parBuffer.h:136-140`: finalize all buffers and take their sizes. -/
def finalizeAll : List (ParBuf β) → Except Err (List (ParBuf β × ℕ))
  | [] => .ok []
  | b :: bs => b.finalize.bind fun b' => b'.size.bind fun n =>
      (finalizeAll bs).map ((b', n) :: ·)

/-- `include/pargeo/parBuffer.h:145-156`: the writes of the parallel loop over the buffers. -/
def copyAll : ℕ → List (ParBuf β × ℕ) → Except Err (List (ℕ × β))
  | _, [] => .ok []
  | off, (b, n) :: bs => (b.copy off).bind fun w => (copyAll (off + n) bs).map (w ++ ·)

/-- `include/pargeo/parBuffer.h:131-158` (`parBufCollect`): all writes to the result and its length;
the writes are executed in an arbitrary order by the parallel loops. -/
def collect (bs : List (ParBuf β)) : Except Err (List (ℕ × β) × ℕ) :=
  (finalizeAll bs).bind fun fs => (copyAll 0 fs).map fun w => (w, (fs.map (·.2)).sum)

/-- A history of insertions (worker, element) on the buffers of all workers; a worker only touches
its own buffer (`include/kdTree/wspdImpl.h:168-173`). -/
def pushAll (szT szPtr : ℕ) : List (ℕ × β) → List (ParBuf β) → Except Err (List (ParBuf β))
  | [], bs => .ok bs
  | (w, x) :: h, bs =>
    match bs[w]? with
    | none => .error .ub
    | some b => (b.push szT szPtr x).bind fun b' => pushAll szT szPtr h (bs.set w b')

end Verif.Par
