import Verif.Rc.Machine
/-!
# Looking at handles: comparison, hashing, formatting

`/repo/src/internal/macros/{borrow,cmp,fmt,hash,iter}.rs`, instantiated for `RcSlice` in
`/repo/src/rc/rc_slice.rs:465-469`, for `RcSliceMut` in `/repo/src/rc/rc_slice_mut.rs:159-164` and
for the iterators in `rc_slice_mut.rs:233` and `284`.

The macros defer to the impls for `[T]` in `core`, which are modelled here as loops over the
items, with the item's own operation as a parameter. Items of two types live in two heaps,
so comparison takes two states.
-/

namespace Verif.Rc
open Spec
variable {α β : Type}

/-- `self[..]`, `&**self` and `as_slice`: `Deref` in `rc_slice.rs:439-446`, `rc_slice_mut.rs:108-116`,
`as_slice` in `rc_slice_mut.rs:168`, `237`; `as_ref`, `borrow`, `as_mut` and `borrow_mut` in `macros/borrow.rs:5`, `10`, `19`, `24`
are the same. `none` if the position holds no such handle. -/
def deref (umax : Nat) (s : State α) (k : Nat) : Except UB (Option (List α)) :=
  match s.get k with
  | some x => do
    match ← handleRange umax s.h x with
    | none => pure none
    | some (b, off, len) => do
      let xs ← readRange s.h b off len
      pure (some xs)
  | none => .ok none

/-- `impl PartialEq<[B]> for [A]` in `core`: lengths first, then item by item. Called by macros/cmp.rs:5. -/
def sliceEq (eq : α → β → Bool) (xs : List α) (ys : List β) : Bool :=
  if xs.length ≠ ys.length then false else go xs ys
where
  go : List α → List β → Bool
    | x :: xs, y :: ys => if eq x y then go xs ys else false
    | _, _ => true

/-- `impl PartialOrd for [T]` in `core`: the first difference in the common part decides, else the lengths. Called by macros/cmp.rs:14. -/
def slicePartialCmp (cmp : α → α → Option Ordering) : List α → List α → Option Ordering
  | x :: xs, y :: ys =>
    match cmp x y with
    | some .eq => slicePartialCmp cmp xs ys
    | o => o
  | [], [] => some .eq
  | [], _ :: _ => some .lt
  | _ :: _, [] => some .gt

/-- `impl Ord for [T]` in `core`. Called by macros/cmp.rs:20. -/
def sliceCmp (cmp : α → α → Ordering) : List α → List α → Ordering
  | x :: xs, y :: ys =>
    match cmp x y with
    | .eq => sliceCmp cmp xs ys
    | o => o
  | [], [] => .eq
  | [], _ :: _ => .lt
  | _ :: _, [] => .gt

/-- `impl Hash for [T]` in `core`: what is written to the hasher, the length and then the items. Called by macros/hash.rs:5. -/
def sliceHash {W : Type} (len : Nat → W) (hash : α → List W) (xs : List α) : List W :=
  len xs.length :: xs.flatMap hash

/-- `impl Debug for [T]`: `debug_list`, without the alternate form. Called by macros/fmt.rs:5. -/
def sliceDebug (dbg : α → String) (xs : List α) : String :=
  "[" ++ ", ".intercalate (xs.map dbg) ++ "]"

/-- `PartialEq::eq`: `macros/cmp.rs:5`. -/
def eqHandles (umax : Nat) (eq : α → β → Bool) (s : State α) (k : Nat) (t : State β) (l : Nat) : Except UB (Option Bool) := do
  let xs ← deref umax s k
  let ys ← deref umax t l
  pure (do let xs ← xs; let ys ← ys; pure (sliceEq eq xs ys))

/-- `PartialEq::ne`: `macros/cmp.rs:7`; `ne` of slices is the negation of `eq`. -/
def neHandles (umax : Nat) (eq : α → β → Bool) (s : State α) (k : Nat) (t : State β) (l : Nat) : Except UB (Option Bool) := do
  let xs ← deref umax s k
  let ys ← deref umax t l
  pure (do let xs ← xs; let ys ← ys; pure (!sliceEq eq xs ys))

/-- `PartialOrd::partial_cmp`: `macros/cmp.rs:13-15`. -/
def partialCmpHandles (umax : Nat) (cmp : α → α → Option Ordering) (s : State α) (k l : Nat) : Except UB (Option (Option Ordering)) := do
  let xs ← deref umax s k
  let ys ← deref umax s l
  pure (do let xs ← xs; let ys ← ys; pure (slicePartialCmp cmp xs ys))

/-- `Ord::cmp`: `macros/cmp.rs:19-21`. -/
def cmpHandles (umax : Nat) (cmp : α → α → Ordering) (s : State α) (k l : Nat) : Except UB (Option Ordering) := do
  let xs ← deref umax s k
  let ys ← deref umax s l
  pure (do let xs ← xs; let ys ← ys; pure (sliceCmp cmp xs ys))

/-- `Hash::hash`: `macros/hash.rs:4-6`. -/
def hashHandle {W : Type} (umax : Nat) (len : Nat → W) (hash : α → List W) (s : State α) (k : Nat) : Except UB (Option (List W)) := do
  let xs ← deref umax s k
  pure (do let xs ← xs; pure (sliceHash len hash xs))

/-- `Debug::fmt`: `macros/fmt.rs:4-6` for slices, `14-18` for item iterators, `26-31` for parts
iterators. -/
def debugHandle (umax : Nat) (dbg : α → String) (s : State α) (k : Nat) : Except UB (Option String) := do
  let xs ← deref umax s k
  match xs with
  | none => pure none
  | some xs =>
    match s.get k with
    | some (.iter _) => pure (some ("RcSliceMutIter(" ++ sliceDebug dbg xs ++ ")"))
    | some (.parts _ _ it) => do
      let n ← noFault it.len
      pure (some ("RcSliceMutParts { remaining_parts: " ++ toString n ++ ", remaining_items: " ++ sliceDebug dbg xs ++ " }"))
    | _ => pure (some (sliceDebug dbg xs))

end Verif.Rc
