import Verif.Rc.Program
import Verif.Model.BinParts
import Verif.Spec.Histories
/-!
# Iterators over the parts of shared slices, on the heap

`RcSliceParts` is a `BinaryPartsIter` whose deque holds `RcSlice`s. Here layer A's
`BinaryPartsIter` is run on the heap machine: the elements of its deque are names of
handles in the machine's table, which the user cannot use, and splitting an element is
the machine's `splitOff`.
-/

namespace Verif.Rc
open Verif.Spec (Side Op Obs End)
variable {α : Type}

/-- Code that calls the functions of `RcSlice` and may panic. What bin_parts_iter.rs:13-16 `BinarySplitOff` abstracts over. -/
abbrev PM (α : Type) := ExceptT Fault (StateT (State α) (Except UB))

/-- rc_slice.rs:514-519 `impl BinarySplitOff for RcSlice`: (returned half, rest). The half
returned by `split_off_left` or `split_off_right` is a new entry of the table. -/
def splitOffK (umax : Nat) (sd : Side) (k : Nat) : PM α (Nat × Nat) := fun s =>
  match call umax s (.splitOff sd k) with
  | .ok (s', _) => .ok (.ok (s.hs.length, k), s')
  | .error e => .error e

/-- A program with handles and iterators over the parts of shared slices. -/
structure PState (α : Type) where
  st : State α
  /-- `RcSliceParts`: rc_slice.rs:87-90 -/
  its : List (Option (BinaryPartsIter Nat))

namespace PState

/-- Before the first call. -/
def empty (zst : Bool) : PState α := ⟨⟨Heap.empty zst, []⟩, []⟩
/-- The iterator with number `j`: a variable of the user. -/
def iter (p : PState α) (j : Nat) : Option (BinaryPartsIter Nat) := p.its[j]?.join

/-- The handles inside iterators. bin_parts_iter.rs:25 `deque`. -/
def hidden (p : PState α) : List Nat := p.its.flatMap fun o => match o with | some it => it.deque.items | none => []

end PState

/-- Calls on handles and on iterators. rc_slice.rs:380-382, 523-562. -/
inductive POp (α : Type) where
  /-- a call on a handle the user holds -/
  | base (op : Op α)
  /-- `RcSlice::split_into_parts` -/
  | intoParts (k n : Nat)
  /-- `next` or `next_back` -/
  | nextPart (e : End) (j : Nat)
  | asSlice (j : Nat)
  | len (j : Nat)
  /-- `clone`; the capacity of the new deque is the standard library's choice -/
  | cloneParts (j cap : Nat)
  | dropParts (j : Nat)

/-- The handle a call is made on. Models no code. -/
def POp.on : POp α → Option Nat
  | .base op => op.on
  | .intoParts k _ => some k
  | _ => none

/-- What the caller sees. Models no code: the results of rc_slice.rs:380-382, 523-562. -/
inductive PObs (α : Type) where
  | base (o : Obs α)
  /-- a new iterator -/
  | iter
  /-- `Some(part)`: the handle `k`, and where it points: item `off` of buffer `buf`, length -/
  | part (k buf off len : Nat)
  | none
  | items (xs : List α)
  | count (n : Nat)
  | done
  | panicked
  /-- the call cannot be made -/
  | invalid
deriving DecidableEq, Repr

/-- Layer A's context: addresses are item positions, and zero-sized items have no size. See `Model/Basic.lean`; models no code. -/
def partsCtx (zst : Bool) (umax cnt : Nat) : Ctx := ⟨if zst then 0 else 1, umax, 0, cnt⟩

/-- The buffer and the positions a handle points to. rc_slice.rs:224-226 `deref`, as used by bin_parts_iter.rs:125-147. -/
def place (umax : Nat) (s : State α) (k : Nat) : Except UB (Nat × Nat × Nat) :=
  match s.get k with
  | some x =>
    match handleRange umax s.h x with
    | .ok (some q) => .ok q
    | .ok none => .error .fault
    | .error e => .error e
  | none => .error .fault

/-- `place` where it is known to succeed, as pointer and length. Models no other code. -/
def rawOf (C : Ctx) (umax : Nat) (s : State α) (k : Nat) : RawSlice :=
  match place umax s k with
  | .ok (_, off, len) => ⟨C.base + off * C.size, len⟩
  | .error _ => ⟨0, 0⟩

/-- rc_slice.rs:529-533 `as_slice`, as a range of a buffer; `none` if no parts are left. All
elements of the deque must point into one buffer, since their pointers are subtracted. The
slice of zero-sized items starts anywhere; here at the first element's position. -/
def iterRange (umax : Nat) (s : State α) (it : BinaryPartsIter Nat) : Except UB (Option (Nat × Nat × Nat)) :=
  match it.deque.items with
  | [] => do
    let C := partsCtx s.h.sk.zst umax 0
    let r ← noFault (it.asSlice C 0 (rawOf C umax s))
    if r.len = 0 then pure none else .error .fault
  | k :: ks => do
    let (b, off, _) ← place umax s k
    let bs ← ks.mapM fun k => do
      let (b', _, _) ← place umax s k
      pure b'
    if bs.all (· == b) then do
      let C := partsCtx s.h.sk.zst umax (s.h.sk.blen b)
      let r ← noFault (it.asSlice C 0 (rawOf C umax s))
      pure (some (b, if s.h.sk.zst then off else r.ptr, r.len))
    else .error .fault

/-- Drop handles one after another: the elements of a `VecDeque`, front to back. Drop glue of bin_parts_iter.rs:21-26. -/
def dropAll (umax : Nat) : State α → List Nat → Except UB (State α)
  | s, [] => .ok s
  | s, k :: ks => do
    let (s, _) ← call umax s (.drop k)
    dropAll umax s ks

/-- Clone handles one after another. rc_slice.rs:557-562. -/
def cloneAll (umax : Nat) : State α → List Nat → Except UB (State α × List Nat)
  | s, [] => .ok (s, [])
  | s, k :: ks => do
    let (s', _) ← call umax s (.clone k)
    let (s', ks) ← cloneAll umax s' ks
    pure (s', s.hs.length :: ks)

/-- One call. `umax` is `usize::MAX`. The build is a release build (no `debug_assert`); layer
A has the assertions. -/
def pcall (umax : Nat) (p : PState α) : POp α → Except UB (PState α × PObs α)
  | .base op =>
    if op.on.any (p.hidden.contains ·) then .ok (p, .invalid)
    else do
      let (s, o) ← call umax p.st op
      pure ({ p with st := s }, .base o)
  -- rc_slice.rs:380-382, 524-527
  | .intoParts k n =>
    match p.st.get k with
    | some (.strong _ _) =>
      if p.hidden.contains k || decide (umax < n) then .ok (p, .invalid)
      else match BinaryPartsIter.new k n with
        | .ok it => .ok ({ p with its := p.its ++ [some it] }, .iter)
        -- unwinding drops the slice
        | .error _ => do
          let (s, _) ← call umax p.st (.drop k)
          pure ({ p with st := s }, .panicked)
    | _ => .ok (p, .invalid)
  -- rc_slice.rs:541-553
  | .nextPart e j =>
    match p.iter j with
    | some it => do
      let (r, s) ← match e with
        | .front => BinaryPartsIter.next (splitOffK umax .L) umax false it p.st
        | .back => BinaryPartsIter.nextBack (splitOffK umax .R) umax false it p.st
      let (o, it) ← noFault r
      match o with
      | none => pure (⟨s, p.its.set j (some it)⟩, .none)
      | some k => do
        let (b, off, len) ← place umax s k
        pure (⟨s, p.its.set j (some it)⟩, .part k b off len)
    | none => .ok (p, .invalid)
  | .asSlice j =>
    match p.iter j with
    | some it => do
      match ← iterRange umax p.st it with
      | none => pure (p, .items [])
      | some (b, off, len) => do
        let xs ← readRange p.st.h b off len
        pure (p, .items xs)
    | none => .ok (p, .invalid)
  -- rc_slice.rs:536-539
  | .len j =>
    match p.iter j with
    | some it => do
      let n ← noFault it.len
      pure (p, .count n)
    | none => .ok (p, .invalid)
  -- rc_slice.rs:557-562, bin_parts_iter.rs:20
  | .cloneParts j cap =>
    match p.iter j with
    | some it =>
      if it.deque.items.length ≤ cap then do
        let (s, ks) ← cloneAll umax p.st it.deque.items
        pure (⟨s, p.its ++ [some { it with deque := ⟨ks, cap⟩ }]⟩, .iter)
      else .ok (p, .invalid)
    | none => .ok (p, .invalid)
  | .dropParts j =>
    match p.iter j with
    | some it => do
      let s ← dropAll umax p.st it.deque.items
      pure (⟨s, p.its.set j none⟩, .done)
    | none => .ok (p, .invalid)

/-- A history of calls. Models no code of /repo but that of its users. -/
def prun (umax : Nat) : PState α → List (POp α) → Except UB (PState α × List (PObs α))
  | p, [] => .ok (p, [])
  | p, x :: xs => do
    let (p, o) ← pcall umax p x
    let (p, os) ← prun umax p xs
    pure (p, o :: os)

/-- The state after a history of calls, or undefined behaviour. Models no code of /repo but that of its users. -/
def pafter (umax : Nat) (zst : Bool) (ops : List (POp α)) : Except UB (PState α) :=
  (prun umax (PState.empty zst) ops).map (·.1)

/-- What a call returns after a history of calls. Models no code of /repo but that of its users. -/
def panswer (umax : Nat) (zst : Bool) (ops : List (POp α)) (op : POp α) : Except UB (PObs α) :=
  (pafter umax zst ops).bind fun p => (pcall umax p op).map (·.2)

end Verif.Rc
