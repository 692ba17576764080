import Verif.Model.Basic
/-!
# `SliceItems`, `SliceItemsIter`, `SliceItemsParts`

Function by function model of `src/internal/slice_model/slice_items.rs`.
`&mut self` methods return the result together with the new `self`.
-/

namespace Verif

/-- slice_items.rs:13-17 `SliceItems`. `phantom` carries no data. Made by 42-44 `new`, taken apart by 46-51 `into_raw_parts`;
`deref` and `deref_mut` (106-108, 112-114) show the same two numbers. -/
structure SliceItems where
  ptr : Nat
  len : Nat
deriving DecidableEq, Repr

/-- slice_items.rs:380, 386-389 `PtrOrIdx`/`PtrOrIdxRange` (copies: 437, 485): an address, or an
index for zero-sized types. -/
structure PtrOrIdxRange where
  start : Nat
  stop  : Nat
deriving DecidableEq, Repr

/-- slice_items.rs:19-22 `SliceItemsIter`. -/
structure SliceItemsIter where
  range : PtrOrIdxRange
deriving DecidableEq, Repr

/-- slice_items.rs:24-31 `SliceItemsParts`. -/
structure SliceItemsParts where
  origPtr : Nat
  origLen : Nat
  numParts : Nat
  numYieldedFront : Nat
  numYieldedBack : Nat
deriving DecidableEq, Repr

namespace SliceItems

/-- slice_items.rs:68-70 `left_len`. -/
def leftLen (s : SliceItems) : Nat := s.len >>> 1

/-- slice_items.rs:72-74 `right_len`. -/
def rightLen (s : SliceItems) : Except Fault Nat := subU s.len (s.len >>> 1)

/-- slice_items.rs:76-82 `mid`. -/
def mid (C : Ctx) (s : SliceItems) : Except Fault Nat :=
  if C.size = 0 then pure s.ptr else C.ptrAdd s.ptr (s.len >>> 1)

/-- slice_items.rs:53-59 `split_off_left`: returns (left, new self).
`self.ptr` is overwritten before `right_len` is evaluated, which does not read it. -/
def splitOffLeft (C : Ctx) (s : SliceItems) : Except Fault (SliceItems × SliceItems) := do
  let ptr := s.ptr
  let leftLen := s.leftLen
  let mid ← s.mid C
  let s := { s with ptr := mid }
  let rightLen ← s.rightLen
  let s := { s with len := rightLen }
  pure (⟨ptr, leftLen⟩, s)

/-- slice_items.rs:61-66 `split_off_right`: returns (right, new self). -/
def splitOffRight (C : Ctx) (s : SliceItems) : Except Fault (SliceItems × SliceItems) := do
  let mid ← s.mid C
  let rightLen ← s.rightLen
  let s := { s with len := s.leftLen }
  pure (⟨mid, rightLen⟩, s)

end SliceItems

namespace PtrOrIdxRange

/-- slice_items.rs:415-422 `PtrOrIdx::add`. -/
def add (C : Ctx) (p count : Nat) : Except Fault Nat :=
  if C.size = 0 then addU C.umax p count else C.ptrAdd p count

/-- slice_items.rs:424-431 `PtrOrIdx::sub`. -/
def sub (C : Ctx) (p count : Nat) : Except Fault Nat :=
  if C.size = 0 then subU p count else C.ptrSub p count

/-- slice_items.rs:391-399, 402-404 `PtrOrIdx::as_ptr`, `as_mut_ptr`; `dangling` stands for `NonNull::dangling()`. -/
def asPtr (C : Ctx) (dangling p : Nat) : Nat := if C.size = 0 then dangling else p

/-- slice_items.rs:447-460 `with_ptr_and_len`. -/
def withPtrAndLen (C : Ctx) (ptr len : Nat) : Except Fault PtrOrIdxRange :=
  if C.size = 0 then pure ⟨0, len⟩ else do
    let e ← C.ptrAdd ptr len
    pure ⟨ptr, e⟩

/-- slice_items.rs:462-469 `len`. -/
def len (C : Ctx) (r : PtrOrIdxRange) : Except Fault Nat :=
  if C.size = 0 then subU r.stop r.start else do
    let d ← subU r.stop r.start
    pure (d / C.size)

end PtrOrIdxRange

/-- What `slice::from_raw_parts(ptr, len)` is given: an address and a length. Used e.g. at slice_items.rs:241-283 `as_raw_slice_parts`. -/
structure RawSlice where
  ptr : Nat
  len : Nat
deriving DecidableEq, Repr

namespace SliceItemsIter

/-- slice_items.rs:126-130 `new` (and 122 `into_iter`). -/
def new (C : Ctx) (s : SliceItems) : Except Fault SliceItemsIter := do
  let range ← PtrOrIdxRange.withPtrAndLen C s.ptr s.len
  pure ⟨range⟩

/-- slice_items.rs:168-171 `len`. -/
def len (C : Ctx) (it : SliceItemsIter) : Except Fault Nat := it.range.len C

/-- slice_items.rs:132-138 `as_slice`/`as_mut_slice` through 471-479. -/
def asSlice (C : Ctx) (dangling : Nat) (it : SliceItemsIter) : Except Fault RawSlice := do
  let n ← it.range.len C
  pure ⟨PtrOrIdxRange.asPtr C dangling it.range.start, n⟩

/-- slice_items.rs:140-149 `split_off_from`: returns (split, new self). -/
def splitOffFrom (C : Ctx) (it : SliceItemsIter) (at_ : Nat) :
    Except Fault (SliceItemsIter × SliceItemsIter) := do
  let n ← it.len C
  if at_ ≤ n then
    let splitPt ← PtrOrIdxRange.add C it.range.start at_
    pure (⟨⟨splitPt, it.range.stop⟩⟩, ⟨⟨it.range.start, splitPt⟩⟩)
  else throw .panic

/-- slice_items.rs:151-160 `split_off_to`: returns (split, new self). -/
def splitOffTo (C : Ctx) (it : SliceItemsIter) (at_ : Nat) :
    Except Fault (SliceItemsIter × SliceItemsIter) := do
  let n ← it.len C
  if at_ ≤ n then
    let splitPt ← PtrOrIdxRange.add C it.range.start at_
    pure (⟨⟨it.range.start, splitPt⟩⟩, ⟨⟨splitPt, it.range.stop⟩⟩)
  else throw .panic

/-- slice_items.rs:176-186 `next`. The item read (407-413 `read`) is represented by the
address (or index, for zero-sized types) it is read from. -/
def next (C : Ctx) (it : SliceItemsIter) : Except Fault (Option Nat × SliceItemsIter) := do
  let n ← it.len C
  if n > 0 then
    let read := it.range.start
    let start ← PtrOrIdxRange.add C it.range.start 1
    pure (some read, ⟨⟨start, it.range.stop⟩⟩)
  else pure (none, it)

/-- slice_items.rs:193-202 `next_back`. -/
def nextBack (C : Ctx) (it : SliceItemsIter) : Except Fault (Option Nat × SliceItemsIter) := do
  let n ← it.len C
  if n > 0 then
    let stop ← PtrOrIdxRange.sub C it.range.stop 1
    pure (some stop, ⟨⟨it.range.start, stop⟩⟩)
  else pure (none, it)

end SliceItemsIter

namespace SliceItemsParts

/-- slice_items.rs:218 (and bin_parts_iter.rs:103-106) `while n & 1 == 0 { n >>= 1; }`,
also counting the iterations. -/
def oddLoop (n log : Nat) : Except Fault (Nat × Nat) :=
  if _h : n = 0 then throw .diverge
  else if n &&& 1 = 0 then oddLoop (n >>> 1) (log + 1)
  else pure (n, log)
termination_by n
decreasing_by rw [Nat.shiftRight_eq_div_pow]; omega

/-- slice_items.rs:215-231 `new` (and 84-86 `split_into_parts`). -/
def new (s : SliceItems) (numParts : Nat) : Except Fault SliceItemsParts := do
  if numParts = 0 then throw .panic
  let (n, _) ← oddLoop numParts 0
  if n = 1 then
    pure ⟨s.ptr, s.len, numParts, 0, 0⟩
  else throw .panic

/-- slice_items.rs:286-291 `len`. -/
def len (it : SliceItemsParts) : Except Fault Nat := do
  let a ← subU it.numParts it.numYieldedFront
  subU a it.numYieldedBack

/-- slice_items.rs:250-258: the loop refining `range.start`. -/
def startLoop (C : Ctx) (front mask start len : Nat) : Except Fault Nat :=
  if _h : mask > 0 then
    if front &&& mask = 0 then
      startLoop C front (mask >>> 1) start (len >>> 1)
    else do
      let start ← PtrOrIdxRange.add C start (len >>> 1)
      let len ← subU len (len >>> 1)
      startLoop C front (mask >>> 1) start len
  else pure start
termination_by mask
decreasing_by all_goals (rw [Nat.shiftRight_eq_div_pow]; omega)

/-- slice_items.rs:263-271: the loop refining `range.end`. -/
def stopLoop (C : Ctx) (back mask stop len : Nat) : Except Fault Nat :=
  if _h : mask > 0 then
    if back &&& mask = 0 then do
      let len ← subU len (len >>> 1)
      stopLoop C back (mask >>> 1) stop len
    else do
      let r ← subU len (len >>> 1)
      let stop ← PtrOrIdxRange.sub C stop r
      stopLoop C back (mask >>> 1) stop (len >>> 1)
  else pure stop
termination_by mask
decreasing_by all_goals (rw [Nat.shiftRight_eq_div_pow]; omega)

/-- slice_items.rs:243-278 `as_raw_slice_parts` (`as_slice`, `as_mut_slice` 233-241 and
`drop` 358-362 use exactly this range). -/
def asSlice (C : Ctx) (dangling : Nat) (it : SliceItemsParts) : Except Fault RawSlice := do
  let n ← it.len
  if n > 0 then
    let range ← PtrOrIdxRange.withPtrAndLen C it.origPtr it.origLen
    let start ← startLoop C it.numYieldedFront (it.numParts >>> 1) range.start it.origLen
    let stop ← stopLoop C it.numYieldedBack (it.numParts >>> 1) range.stop it.origLen
    let n ← PtrOrIdxRange.len C ⟨start, stop⟩
    pure ⟨PtrOrIdxRange.asPtr C dangling start, n⟩
  else pure ⟨dangling, 0⟩

/-- slice_items.rs:307-311 (and 338-342): the new `ptr` when the right half is chosen. -/
def rightPtr (C : Ctx) (ptr len : Nat) : Except Fault Nat :=
  if C.size = 0 then pure ptr else C.ptrAdd ptr (len >>> 1)

/-- slice_items.rs:303-315: the loop of `next`. -/
def nextLoop (C : Ctx) (front mask ptr len : Nat) : Except Fault SliceItems :=
  if _h : mask > 0 then
    if front &&& mask = 0 then
      nextLoop C front (mask >>> 1) ptr (len >>> 1)
    else do
      let ptr ← rightPtr C ptr len
      let len ← subU len (len >>> 1)
      nextLoop C front (mask >>> 1) ptr len
  else pure ⟨ptr, len⟩
termination_by mask
decreasing_by all_goals (rw [Nat.shiftRight_eq_div_pow]; omega)

/-- slice_items.rs:335-348: the loop of `next_back`. -/
def nextBackLoop (C : Ctx) (back mask ptr len : Nat) : Except Fault SliceItems :=
  if _h : mask > 0 then
    if back &&& mask = 0 then do
      let ptr ← rightPtr C ptr len
      let len ← subU len (len >>> 1)
      nextBackLoop C back (mask >>> 1) ptr len
    else
      nextBackLoop C back (mask >>> 1) ptr (len >>> 1)
  else pure ⟨ptr, len⟩
termination_by mask
decreasing_by all_goals (rw [Nat.shiftRight_eq_div_pow]; omega)

/-- slice_items.rs:296-320 `next`. -/
def next (C : Ctx) (it : SliceItemsParts) : Except Fault (Option SliceItems × SliceItemsParts) := do
  let n ← it.len
  if 0 = n then pure (none, it)
  else
    let items ← nextLoop C it.numYieldedFront (it.numParts >>> 1) it.origPtr it.origLen
    let f ← addU C.umax it.numYieldedFront 1
    pure (some items, { it with numYieldedFront := f })

/-- slice_items.rs:327-353 `next_back`. -/
def nextBack (C : Ctx) (it : SliceItemsParts) :
    Except Fault (Option SliceItems × SliceItemsParts) := do
  let n ← it.len
  if 0 = n then pure (none, it)
  else
    let items ← nextBackLoop C it.numYieldedBack (it.numParts >>> 1) it.origPtr it.origLen
    let b ← addU C.umax it.numYieldedBack 1
    pure (some items, { it with numYieldedBack := b })

end SliceItemsParts

end Verif
