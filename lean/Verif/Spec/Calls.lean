import Verif.Spec.Parts
/-!
# The API as a list of calls

The calls a program can make on `RcSlice`, `WeakSlice`, `RcSliceMut`,
`RcSliceMutIter` and `RcSliceMutParts`, and what the caller sees. Handles live in a
table, `k` is a position in the table. A call that creates a handle appends it to the
table. A call on a position that holds no handle of the right type is not a program;
it is `invalid` and does nothing.
-/

namespace Verif.Spec

/-- Left or right half. -/
inductive Side where
  | L
  | R
deriving DecidableEq, Repr

/-- An item of a buffer. -/
inductive Slot (α : Type) where
  /-- beyond the end of the buffer -/
  | absent
  | live (a : α)
  /-- its destructor has been started -/
  | dropped
  /-- handed out by value -/
  | moved
deriving DecidableEq, Repr

/-- A call. -/
inductive Op (α : Type) where
  /-- `RcSlice::from_boxed_slice`, `from_vec`, `From`, `FromIterator` -/
  | rcNew (xs : List α)
  /-- `RcSliceMut::from_boxed_slice`, ... -/
  | mutNew (xs : List α)
  /-- `WeakSlice::new` -/
  | weakNew
  /-- `clone`: shared for `RcSlice` and `WeakSlice`, deep for `RcSliceMut` -/
  | clone (k : Nat)
  /-- `RcSlice::clone_left`, `clone_right` -/
  | cloneSide (s : Side) (k : Nat)
  /-- `split_off_left`, `split_off_right` of `RcSlice` and `RcSliceMut`: `s` is the half
  returned, the other one replaces the handle -/
  | splitOff (s : Side) (k : Nat)
  /-- `RcSlice::get_mut`; if it is granted, item `j` is overwritten with `a` -/
  | getMut (k j : Nat) (a : α)
  /-- overwrite item `j` through `deref_mut` of an `RcSliceMut` or `as_mut_slice` of an iterator -/
  | write (k j : Nat) (a : α)
  /-- look at all items: `deref` or `as_slice` -/
  | read (k : Nat)
  /-- `RcSlice::into_mut`: replaces the handle if it succeeds -/
  | intoMut (k : Nat)
  /-- `RcSliceMut::into_immut`: replaces the handle -/
  | intoImmut (k : Nat)
  /-- `RcSlice::downgrade` -/
  | downgrade (k : Nat)
  /-- `WeakSlice::upgrade` -/
  | upgrade (k : Nat)
  /-- `drop` -/
  | drop (k : Nat)
  /-- `RcSliceMut::into_iter`: replaces the handle -/
  | intoIter (k : Nat)
  /-- `next`, `next_back` of `RcSliceMutIter` -/
  | next (e : End) (k : Nat)
  /-- `RcSliceMutIter::split_off_from` -/
  | splitOffFrom (k at_ : Nat)
  /-- `RcSliceMutIter::split_off_to` -/
  | splitOffTo (k at_ : Nat)
  /-- `RcSliceMut::split_into_parts`: replaces the handle -/
  | intoParts (k n : Nat)
  /-- `next`, `next_back` of `RcSliceMutParts` -/
  | nextPart (e : End) (k : Nat)
deriving Repr

/-- What the caller sees. -/
inductive Obs (α : Type) where
  /-- returned -/
  | done
  /-- returned a new handle, at the end of the table -/
  | handle
  /-- `None` -/
  | none
  /-- `Err(this)` -/
  | err
  /-- the items looked at -/
  | items (xs : List α)
  /-- an item by value -/
  | item (a : α)
  /-- panicked -/
  | panicked
  /-- no such call -/
  | invalid
deriving DecidableEq, Repr

end Verif.Spec
