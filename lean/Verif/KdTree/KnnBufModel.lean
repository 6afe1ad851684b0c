import Verif.Outcome
import Mathlib.Order.WithBot

/-!
Model of the k-nearest buffer in `include/kdTree/knnImpl.h:35-100`.
-/

namespace Verif.KnnBuf

variable {α K : Type}

/-- `include/kdTree/knnImpl.h:41-54` (`elem`). A default constructed element, whose cost is
`numeric_limits::max()` and whose entry is indeterminate, is `none`. -/
abbrev Slot (α K : Type) := Option (K × α)

/-- `include/kdTree/knnImpl.h:44, 47` (`cost`). -/
def Slot.cost (s : Slot α K) : WithTop K := match s with
  | none => ⊤
  | some e => (e.1 : WithTop K)

/-- `include/kdTree/knnImpl.h:56-64` (`buffer`): `buf` is the slice of fixed length. -/
structure Buf (α K : Type) where
  k : ℕ
  ptr : ℕ
  buf : List (Slot α K)

/-- `include/kdTree/knnImpl.h:64, 222, 226` the buffer made by `batchKnn`: a slice of `2k`
default constructed elements. -/
def Buf.new (k : ℕ) : Buf α K := ⟨k, 0, List.replicate (2 * k) none⟩

/-- `include/kdTree/knnImpl.h:68` (`hasK`). -/
def Buf.hasK (b : Buf α K) : Bool := decide (b.k ≤ b.ptr)

/-- `include/kdTree/knnImpl.h:70-77` (`keepK`). `nth m l` is the content of the slice after
`std::nth_element` at position `m`. With `k = 0` the position is before the start of the slice. -/
def Buf.keepK (nth : ℕ → List (Slot α K) → List (Slot α K)) (b : Buf α K) :
    Except Err (Buf α K × Slot α K) :=
  if b.ptr < b.k then .error .throws
  else if b.k = 0 then .error .ub
  else
    match (nth (b.k - 1) b.buf)[b.k - 1]? with
    | none => .error .ub
    | some r => .ok (⟨b.k, b.k, nth (b.k - 1) b.buf⟩, r)

/-- `include/kdTree/knnImpl.h:86-91` (`insert`). -/
def Buf.insert (nth : ℕ → List (Slot α K) → List (Slot α K)) (b : Buf α K) (e : K × α) :
    Except Err (Buf α K) :=
  if b.ptr < b.buf.length then
    let b' : Buf α K := ⟨b.k, b.ptr + 1, b.buf.set b.ptr (some e)⟩
    if b'.ptr ≥ b'.buf.length then (b'.keepK nth).map (·.1) else .ok b'
  else .error .ub

/-- `include/kdTree/knnImpl.h:93-99` (`operator[]`). -/
def Buf.get (b : Buf α K) (i : ℕ) : Except Err (Slot α K) :=
  if i < b.ptr then
    match b.buf[i]? with
    | none => .error .ub
    | some s => .ok s
  else .ok none

/-- `include/kdTree/knnImpl.h:79-84` (`sort`): the first `k` slots are sorted; `srt` is the result of
the sort. -/
def Buf.sort (srt : List (Slot α K) → List (Slot α K)) (b : Buf α K) : Except Err (Buf α K) :=
  if b.ptr < b.k then .error .throws
  else .ok ⟨b.k, b.ptr, srt (b.buf.take b.k) ++ b.buf.drop b.k⟩

/-- The contract of `std::nth_element` (called in `include/kdTree/knnImpl.h:75`): the result is a
permutation, the element at position `m` is not larger than those after it and not smaller than
those before it. -/
def NthSpec [LinearOrder K] (nth : ℕ → List (Slot α K) → List (Slot α K)) : Prop :=
  ∀ m l, m < l.length → (nth m l).Perm l ∧
    ∀ r, (nth m l)[m]? = some r →
      (∀ x ∈ (nth m l).take m, Slot.cost x ≤ Slot.cost r) ∧
      (∀ y ∈ (nth m l).drop m, Slot.cost r ≤ Slot.cost y)

/-- The contract of `parlay::sort_inplace` (called in `include/kdTree/knnImpl.h:83`). -/
def SortSpec [LinearOrder K] (srt : List (Slot α K) → List (Slot α K)) : Prop :=
  ∀ l, (srt l).Perm l ∧ (srt l).Pairwise fun x y => Slot.cost x ≤ Slot.cost y

/-- One call on the buffer: `include/kdTree/knnImpl.h:70, 86`. -/
inductive Op (α K : Type) where
  | ins (e : K × α)
  | keep

/-- A sequence of calls on a buffer (`include/kdTree/knnImpl.h:70-91`). -/
def Buf.run (nth : ℕ → List (Slot α K) → List (Slot α K)) :
    List (Op α K) → Buf α K → Except Err (Buf α K)
  | [], b => .ok b
  | .ins e :: ops, b => (b.insert nth e).bind (Buf.run nth ops)
  | .keep :: ops, b => (b.keepK nth).bind fun r => Buf.run nth ops r.1

/-- A sorting function used to show that the contracts can be met: insertion by cost. Serves
`include/kdTree/knnImpl.h` lines 75, 83. -/
def insertSlot [LinearOrder K] (s : Slot α K) : List (Slot α K) → List (Slot α K)
  | [] => [s]
  | a :: l => if Slot.cost s ≤ Slot.cost a then s :: a :: l else a :: insertSlot s l

/-- Insertion sort by cost; an instance of the contracts of `std::nth_element` and
`parlay::sort_inplace` (`include/kdTree/knnImpl.h:75, 83`). -/
def sortSlots [LinearOrder K] : List (Slot α K) → List (Slot α K)
  | [] => []
  | a :: l => insertSlot a (sortSlots l)

end Verif.KnnBuf
