/-!
# Checked machine arithmetic

`usize` values are natural numbers. Every operation that could overflow,
underflow, leave the allocated object or panic in Rust is a function into
`Except Fault`, so "this code never faults" is a theorem rather than an
assumption.
-/

namespace Verif

/-- Everything that can go wrong in layer A.  Models Rust's panics
(`assert!`, `assert_ne!`, `assert_eq!`, arithmetic overflow checks), the
undefined behaviour of `ptr::add`/`ptr::sub` outside the allocated object, and
a `while` loop that never ends. Raised e.g. at bin_parts_iter.rs:99-122, slice_items.rs:141, 152, 216-219, gate.rs. -/
inductive Fault where
  /-- a failed `assert!`/`assert_eq!`/`assert_ne!`/`expect` the API documents -/
  | panic
  /-- a failed `debug_assert_eq!`/`debug_assert_ne!` -/
  | debugAssert
  /-- `usize` overflow or underflow -/
  | arith
  /-- pointer arithmetic leaving the allocated object -/
  | oob
  /-- a loop that never terminates -/
  | diverge
deriving DecidableEq, Repr

/-- The item type's layout and the buffer that all pointers of a slice point
into: `base` is the address of the first item, `cnt` the number of items,
`size` is `mem::size_of::<T>()` and `umax` is `usize::MAX`. What `NonNull<T>` and `usize` in slice_items.rs:13-31 range over. -/
structure Ctx where
  size : Nat
  umax : Nat
  base : Nat
  cnt  : Nat
deriving DecidableEq, Repr

/-- What the Rust allocator and `Box<[T]>` guarantee about a buffer: it fits in
the address space and its length is a `usize`. Assumed of the argument of slice_model/mod.rs:28-39 `split_alloc_from_items`. -/
structure Ctx.Valid (C : Ctx) : Prop where
  fits : C.base + C.cnt * C.size ≤ C.umax
  cntU : C.cnt ≤ C.umax

/-- `a + b` on `usize` (debug builds panic on overflow; we treat any overflow as a fault). E.g. slice_items.rs:416-422. -/
def addU {m} [Monad m] [MonadExceptOf Fault m] (umax a b : Nat) : m Nat :=
  if a + b ≤ umax then pure (a + b) else throw .arith

/-- `a - b` on `usize`. E.g. slice_items.rs:73, 463-469. -/
def subU {m} [Monad m] [MonadExceptOf Fault m] (a b : Nat) : m Nat :=
  if b ≤ a then pure (a - b) else throw .arith

/-- `ptr.add(count)` for a type of non-zero size: faults unless the result stays
within the allocated object (one past the end allowed), as `ptr::add` requires. slice_items.rs:80, 416-422. -/
def Ctx.ptrAdd (C : Ctx) (p count : Nat) : Except Fault Nat :=
  if C.base ≤ p ∧ p + count * C.size ≤ C.base + C.cnt * C.size
  then pure (p + count * C.size) else throw .oob

/-- `ptr.sub(count)` for a type of non-zero size. slice_items.rs:425-431. -/
def Ctx.ptrSub (C : Ctx) (p count : Nat) : Except Fault Nat :=
  if C.base + count * C.size ≤ p ∧ p ≤ C.base + C.cnt * C.size
  then pure (p - count * C.size) else throw .oob

end Verif
