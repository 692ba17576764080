import Verif.Model.SliceItems
/-!
# `BinaryPartsIter`

Model of `src/internal/bin_parts_iter.rs`, generic in the monad in which the
elements are split, so that the same code can be run on pure ranges and on the
reference counted heap.
-/

namespace Verif

/-- `VecDeque<S>`: contents and capacity.  bin_parts_iter.rs:25.  The capacity
is only compared for equality by the code (262, 291); a push beyond it grows it. -/
structure Deque (S : Type) where
  items : List S
  cap : Nat
deriving DecidableEq, Repr

namespace Deque
/-- `VecDeque::push_front`. Used at bin_parts_iter.rs:115, 257. -/
def pushFront {S} (d : Deque S) (s : S) : Deque S :=
  ⟨s :: d.items, max d.cap (d.items.length + 1)⟩
/-- `VecDeque::push_back`. Used at bin_parts_iter.rs:286. -/
def pushBack {S} (d : Deque S) (s : S) : Deque S :=
  ⟨d.items ++ [s], max d.cap (d.items.length + 1)⟩
end Deque

/-- bin_parts_iter.rs:20-26 `BinaryPartsIter`. -/
structure BinaryPartsIter (S : Type) where
  numParts : Nat
  numYieldedFront : Nat
  numYieldedBack : Nat
  deque : Deque S
deriving DecidableEq, Repr

/-- bin_parts_iter.rs:301-311 `greatest_power_of_2_factor`; `p` starts as 1.
The `debug_assert_ne!(0, n)` becomes the `diverge` fault (the loop would not end). -/
def greatestPowerOf2Factor {m} [Monad m] [MonadExceptOf Fault m] (n p : Nat) : m Nat :=
  if _h : n = 0 then throw .diverge
  else if n &&& 1 = 0 then greatestPowerOf2Factor (n >>> 1) (p <<< 1)
  else pure p
termination_by n
decreasing_by rw [Nat.shiftRight_eq_div_pow]; omega

/-- bin_parts_iter.rs:253 `while n > len { n >>= 1; }`. -/
def shrinkLoop (n len : Nat) : Nat :=
  if _h : n > len then shrinkLoop (n >>> 1) len else n
termination_by n
decreasing_by rw [Nat.shiftRight_eq_div_pow]; omega

namespace BinaryPartsIter

variable {S : Type} {m : Type → Type} [Monad m] [MonadExceptOf Fault m]

/-- bin_parts_iter.rs:99-122 `new`. -/
def new (slice : S) (numParts : Nat) : Except Fault (BinaryPartsIter S) := do
  if numParts = 0 then throw .panic
  let (n, log) ← SliceItemsParts.oddLoop numParts 0
  if n = 1 then
    let cap := if log ≤ 1 then 1 else (log <<< 1) - 2
    pure ⟨numParts, 0, 0, ⟨[slice], cap⟩⟩
  else throw .panic

/-- bin_parts_iter.rs:150-155 `len`. -/
def len (it : BinaryPartsIter S) : m Nat := do
  let a ← subU it.numParts it.numYieldedFront
  subU a it.numYieldedBack

/-- bin_parts_iter.rs:254-261: the splitting loop of `next`. `front_mut().map(..)`
on an empty deque yields `None`. -/
def frontLoop (splitL : S → m (S × S)) (n : Nat) (item : Option S) (d : Deque S) :
    m (Option S × Deque S) :=
  if _h : n = 0 then throw .diverge
  else if n &&& 1 = 0 then do
    let d := match item with
      | some i => d.pushFront i
      | none => d
    match d.items with
    | [] => frontLoop splitL (n >>> 1) none d
    | x :: xs => do
      let (l, x') ← splitL x
      frontLoop splitL (n >>> 1) (some l) { d with items := x' :: xs }
  else pure (item, d)
termination_by n
decreasing_by all_goals (rw [Nat.shiftRight_eq_div_pow]; omega)

/-- bin_parts_iter.rs:283-290: the splitting loop of `next_back`. -/
def backLoop (splitR : S → m (S × S)) (n : Nat) (item : Option S) (d : Deque S) :
    m (Option S × Deque S) :=
  if _h : n = 0 then throw .diverge
  else if n &&& 1 = 0 then do
    let d := match item with
      | some i => d.pushBack i
      | none => d
    match d.items.getLast? with
    | none => backLoop splitR (n >>> 1) none d
    | some x => do
      let (r, x') ← splitR x
      backLoop splitR (n >>> 1) (some r) { d with items := d.items.dropLast ++ [x'] }
  else pure (item, d)
termination_by n
decreasing_by all_goals (rw [Nat.shiftRight_eq_div_pow]; omega)

/-- bin_parts_iter.rs:245-266 `next`. `debug` says whether `debug_assert*!` are
compiled in. -/
def next (splitL : S → m (S × S)) (umax : Nat) (debug : Bool) (it : BinaryPartsIter S) :
    m (Option S × BinaryPartsIter S) := do
  let l ← it.len
  if 0 = l then pure (none, it)
  else
    if debug && it.deque.items.length == 0 then throw .debugAssert
    let initialCap := it.deque.cap
    let a ← subU it.numParts it.numYieldedFront
    let n ← greatestPowerOf2Factor a 1
    let len ← it.len
    let n := shrinkLoop n len
    let (item, d) ← frontLoop splitL n none it.deque
    if debug && initialCap != d.cap then throw .debugAssert
    let f ← addU umax it.numYieldedFront 1
    match item with
    | some i => pure (some i, { it with numYieldedFront := f, deque := d })
    | none => pure (d.items.head?, { it with numYieldedFront := f, deque := { d with items := d.items.tail } })

/-- bin_parts_iter.rs:273-295 `next_back`. -/
def nextBack (splitR : S → m (S × S)) (umax : Nat) (debug : Bool) (it : BinaryPartsIter S) :
    m (Option S × BinaryPartsIter S) := do
  let l ← it.len
  if 0 = l then pure (none, it)
  else
    if debug && it.deque.items.length == 0 then throw .debugAssert
    let initialCap := it.deque.cap
    let a ← subU it.numParts it.numYieldedBack
    let n ← greatestPowerOf2Factor a 1
    let len ← it.len
    let n := shrinkLoop n len
    let (item, d) ← backLoop splitR n none it.deque
    if debug && initialCap != d.cap then throw .debugAssert
    let b ← addU umax it.numYieldedBack 1
    match item with
    | some i => pure (some i, { it with numYieldedBack := b, deque := d })
    | none => pure (d.items.getLast?, { it with numYieldedBack := b, deque := { d with items := d.items.dropLast } })

/-- bin_parts_iter.rs:20 `#[derive(Clone)]`: `VecDeque::clone` copies the
elements into a new deque whose capacity `cap` is chosen by the standard library
(only `cap ≥ len` is promised; current versions use exactly `len`). -/
def clone (it : BinaryPartsIter S) (cap : Nat) : BinaryPartsIter S :=
  { it with deque := ⟨it.deque.items, cap⟩ }

/-- bin_parts_iter.rs:125-147 `as_slice`; `deref` gives the pointer and length
of an element's slice. -/
def asSlice (C : Ctx) (dangling : Nat) (deref : S → RawSlice) (it : BinaryPartsIter S) :
    Except Fault RawSlice := do
  let n ← it.len
  if 0 = n then pure ⟨dangling, 0⟩
  else if C.size = 0 then do
    let n ← it.deque.items.foldlM (fun acc s => addU C.umax acc (deref s).len) 0
    pure ⟨dangling, n⟩
  else
    match it.deque.items.head?, it.deque.items.getLast? with
    | some x, some y => do
      let start := (deref x).ptr
      let stop ← C.ptrAdd (deref y).ptr (deref y).len
      let d ← subU stop start
      pure ⟨start, d / C.size⟩
    | _, _ => throw .panic

end BinaryPartsIter

end Verif
