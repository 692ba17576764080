import Verif.Arc.Local
import Verif.Arc.Seq
/-!
# Programs of one thread

What `ArcSliceMut` offers beyond single calls: iterators, `clone`, iterators over parts, and writing through `&mut [T]`. A call that takes a handle
by `&mut` gives it back under a new name, so these programs return the new name too.
-/

namespace Verif.Arc
open Verif.Spec (Side Slot End)
variable {α : Type}

/-- arc_slice_mut.rs:192-197 `next` and 204-209 `next_back` of an `ArcSliceMutIter`. The last case does not occur (C62). -/
def nextItem (e : End) (k : Nat) : Body α (Option α × Nat) := .call (.next e k) fun r ks => match r, ks with
  | .item x, [k'] => .ret (some x, k')
  | .none, [k'] => .ret (none, k')
  | _, _ => .fault .debugAssert

/-- Calls of `next` and `next_back`, one after the other: user code. -/
def walk : List End → Nat → Body α (List (Option α) × Nat)
  | [], k => .ret ([], k)
  | e :: w, k => do
    let (o, k) ← nextItem e k
    let (os, k) ← walk w k
    return (o :: os, k)

/-- `slice.iter().cloned().collect::<Vec<_>>()`, on `n` items from item `i` on. To clone an item gives that item and does nothing else; clones that do are
not modelled. -/
def itemsFrom (k : Nat) : Nat → Nat → Body α (List α)
  | 0, _ => .ret []
  | n + 1, i => .get k i fun
    | some x => do
      let xs ← itemsFrom k n (i + 1)
      return x :: xs
    | none => .fault .oob

/-- arc_slice_mut.rs:122-130 `clone` of an `ArcSliceMut`; iter.rs:4-6 `from_iter`; arc_slice_mut.rs:108-112, 44-51. -/
def cloneMut (k : Nat) : Body α Nat := .len k fun n => do
  let xs ← itemsFrom k n 0
  .call (.mutNew xs) fun r ks => match r, ks with
    | .handle, [m] => .ret m
    | _, _ => .fault .debugAssert

/-- `for x in slice.iter_mut() { *x = f(x) }`, on `n` items from item `i` on: user code. -/
def mapFrom (f : α → α) (k : Nat) : Nat → Nat → Body α Unit
  | 0, _ => .ret ()
  | n + 1, i => .get k i fun
    | some x => .set k i (f x) (mapFrom f k n (i + 1))
    | none => .fault .oob

def mapMut (f : α → α) (k : Nat) : Body α Unit := .len k fun n => mapFrom f k n 0

/-- arc_slice_mut.rs:73-77 `split_into_parts`. The pointers and counters are those of layer A; positions count from the start of the slice. If
`num_parts` is not a power of two, the slice is dropped as the panic unwinds. -/
def intoPartsMut (k n : Nat) : Body α (Nat × SliceItemsParts) := .len k fun l => match SliceItemsParts.new ⟨0, l⟩ n with
  | .ok it => .ret (k, it)
  | .error f => .call (.drop k) fun _ _ => .fault f

/-- arc_slice_mut.rs:231-242 `next` and 249-260 `next_back` of an `ArcSliceMutParts`: the part is the name of a handle. The size of the part is computed
by layer A (`partsStep`); where it starts is computed there too, but not used here: the part is cut off the items that are left. That it is the same is
shown for layer A (C04) and in `Arc/Seq`. -/
def nextPartMut (umax : Nat) (e : End) : Nat × SliceItemsParts → Body α (Option Nat × Nat × SliceItemsParts)
  | (k, it) => match Seq.partsStep umax it.origLen it e with
    | .error f => .fault f
    | .ok (none, it) => .ret (none, k, it)
    | .ok (some p, it) => .len k fun l => .call (.cut e (Seq.cutAt l p.len e) k) fun r ks => match r, ks with
      | .handle, [m, k] => .ret (some m, k, it)
      | _, _ => .fault .debugAssert

/-- Calls of `next` and `next_back`, one after the other: user code. -/
def walkPartsMut (umax : Nat) : List End → Nat × SliceItemsParts → Body α (List (Option Nat) × Nat × SliceItemsParts)
  | [], p => .ret ([], p)
  | e :: w, p => do
    let (o, p) ← nextPartMut umax e p
    let (os, p) ← walkPartsMut umax w p
    return (o :: os, p)

end Verif.Arc
