import Verif.Rc.Heap
/-!
# Function by function model of `src/rc/rc_slice.rs` and `src/rc/rc_slice_mut.rs`

Functions return the new heap with their result; whatever they drop last is returned
as a list of tasks, in Rust's drop order, executed by `Verif.Rc.Machine`.
-/

namespace Verif.Rc
open Verif.Spec (Side Family)
variable {α : Type}

/-- A range of items owned outside of any `RcSliceData`, with the allocation reference
that keeps their memory: the fields of `RcSliceMut`, `RcSliceMutIter`,
`RcSliceMutParts` (rc_slice_mut.rs:24-44; `from_raw_parts`: 56-58). -/
structure Reg where
  buf : Nat
  off : Nat
  len : Nat
  alloc : Option Nat
deriving DecidableEq, Repr

/-- Pending drops. -/
inductive Task where
  /-- drop an `Rc` -/
  | dropS (x : Nat)
  /-- drop the items of a range, then its allocation reference -/
  | dropReg (r : Reg)
  /-- drop an `RcSlice`: rc_slice.rs:71-76, fields in order -/
  | dropRcSlice (d i : Nat)
  /-- the destructor of an item is running -/
  | userCode
deriving DecidableEq, Repr

namespace DataV

/-- rc_slice.rs:159-170 `left_sub`, `right_sub`: start. -/
def subOff (v : DataV) : Side → Nat
  | .L => v.off
  | .R => v.off + (v.len >>> 1)

/-- rc_slice.rs:159-170: length. -/
def subLen (v : DataV) : Side → Nat
  | .L => v.len >>> 1
  | .R => v.len - (v.len >>> 1)

/-- rc_slice.rs:135 `clone_child`. -/
def setKid (v : DataV) (s : Side) (c : Nat) : DataV :=
  { v with kids := fun t => if t = s then some c else v.kids t }

/-- rc_slice.rs:201-213: the range of items dropped by `RcSliceData::drop` itself. -/
def dropRange (v : DataV) : Nat × Nat :=
  match v.kids .L, v.kids .R with
  | none, none => (v.off, v.len)
  | some _, none => (v.subOff .R, v.subLen .R)
  | none, some _ => (v.subOff .L, v.subLen .L)
  | some _, some _ => (v.off, 0)

end DataV

/-- rc_slice.rs:243. -/
def ImgV.setKid (v : ImgV) (s : Side) (c : Nat) : ImgV :=
  { v with kids := fun t => if t = s then some c else v.kids t }

/-- rc_slice.rs:284. -/
def GmgV.setKid (v : GmgV) (s : Side) (c : Nat) : GmgV :=
  { v with kids := fun t => if t = s then some c else v.kids t }

/-- rc_slice.rs:108-109, 237-238, 255-256, 261-262, 280-281, 295-296, 317-318. -/
def noKids : Side → Option Nat := fun _ => none

/-- rc_slice.rs:115-145 `RcSliceData::clone_left`, `clone_right`, `clone_child`. -/
def dataCloneChild (h : Heap α) (d : Nat) (s : Side) : Except UB (Heap α × Nat) := do
  let v ← h.getData d
  match v.kids s with
  | none =>
    let alloc := if v.subLen s = 0 then none else v.alloc
    let h ← h.incSOpt alloc
    let (h, c) := h.rcNew (.data ⟨v.buf, v.subOff s, v.subLen s, alloc, noKids⟩) ((h.sk.lab d).child s)
    let h ← h.incS c
    let h := h.setNode d (.data (v.setKid s c))
    pure (h, c)
  | some c => do
    let h ← h.incS c
    pure (h, c)

/-- rc_slice.rs:273-289, 329-330 `GetMutGuard::clone_left`, `clone_right`. -/
def gmgCloneChild (h : Heap α) (g : Nat) (s : Side) : Except UB (Heap α × Nat) := do
  let v ← h.getGmg g
  match ← h.upgrade (v.kids s) with
  | some r => pure r
  | none =>
    let h ← h.incS g
    let (h, c) := h.rcNew (.gmg ⟨some (g, s), noKids, none⟩) ((h.sk.lab g).child s)
    let h ← h.incW c
    let h ← h.decW (v.kids s)
    let h := h.setNode g (.gmg (v.setKid s c))
    pure (h, c)

/-- rc_slice.rs:229-249, 269-270 `IntoMutGuard::clone_left`, `clone_right`. -/
def imgCloneChild (h : Heap α) (i : Nat) (s : Side) : Except UB (Heap α × Nat) := do
  let v ← h.getImg i
  match ← h.upgrade (v.kids s) with
  | some r => pure r
  | none =>
    let (h, gc) ← gmgCloneChild h v.gmg s
    let h ← h.incS i
    let (h, c) := h.rcNew (.img ⟨some i, noKids, gc⟩) ((h.sk.lab i).child s)
    let vg ← h.getGmg gc
    let h ← h.incW c
    let h ← h.decW vg.img
    let h := h.setNode gc (.gmg { vg with img := some c })
    let h ← h.incW c
    let h ← h.decW (v.kids s)
    let h := h.setNode i (.img (v.setKid s c))
    pure (h, c)

/-- rc_slice.rs:252-267 `IntoMutGuard::new`. The family number is ghost. -/
def imgNew (h : Heap α) (l : Lab) : Except UB (Heap α × Nat) := do
  let (h, g) := h.rcNew (.gmg ⟨none, noKids, none⟩) l
  let (h, i) := h.rcNew (.img ⟨none, noKids, g⟩) l
  let h ← h.incW i
  let h := h.setNode g (.gmg ⟨none, noKids, some i⟩)
  pure (h, i)

/-- rc_slice.rs:301-327 `GetMutGuard::ensure_into_mut_guard`. `fuel` bounds the
recursion; running out of it is an error. -/
def ensureImg : Nat → Heap α → Nat → Except UB (Heap α × Nat)
  | 0, _, _ => .error .diverge
  | fuel + 1, h, g => do
    let v ← h.getGmg g
    match ← h.upgrade v.img with
    | some r => pure r
    | none =>
      match v.parent with
      | some (p, s) => do
        let (h, pi) ← ensureImg fuel h p
        let (h, c) ← imgCloneChild h pi s
        let h ← h.decShared pi
        pure (h, c)
      | none => do
        let h ← h.incS g
        let (h, c) := h.rcNew (.img ⟨none, noKids, g⟩) (h.sk.lab g)
        let h ← h.incW c
        let h ← h.decW v.img
        let h := h.setNode g (.gmg { v with img := some c })
        pure (h, c)

/-- Ghost: open a new family. Models no code. -/
def newFam (h : Heap α) (f : Family) : Heap α × Nat :=
  ({ h with sk := { h.sk with nfam := h.sk.nfam + 1, fams := upd h.sk.fams h.sk.nfam f } }, h.sk.nfam)

/-- A boxed slice enters the library: its items and its memory. Zero-sized items and
empty slices have no memory. The argument of rc_slice.rs:93-101, rc_slice_mut.rs:47-50. -/
def newBuf (h : Heap α) (xs : List α) : Heap α × Nat :=
  ({ h with
      sk := { h.sk with
        nbuf := h.sk.nbuf + 1
        mem := upd h.sk.mem h.sk.nbuf (!h.sk.zst && !xs.isEmpty)
        blen := upd h.sk.blen h.sk.nbuf xs.length }
      slot := upd h.slot h.sk.nbuf fun i => match xs[i]? with
        | some a => .live a
        | none => .absent }, h.sk.nbuf)

/-- rc_slice.rs:334-336 `RcSlice::from_unique_data` applied to a new `RcSliceData`
(rc_slice.rs:103-113 `from_data_parts`). -/
def rcFromParts (h : Heap α) (r : Reg) : Except UB (Heap α × Nat × Nat) := do
  let (h, f) := newFam h ⟨r.buf, ⟨r.off, r.len⟩, r.alloc.isSome⟩
  let (h, d) := h.rcNew (.data ⟨r.buf, r.off, r.len, r.alloc, noKids⟩) ⟨f, []⟩
  let (h, i) ← imgNew h ⟨f, []⟩
  pure (h, d, i)

/-- rc_slice.rs:338-344 `RcSlice::from_boxed_slice` with 93-101
`RcSliceData::from_boxed_slice` and slice_alloc.rs:20-22: an allocation object unless the slice is empty.
Also rc_slice.rs:448-450, 454-456 `From<Box<[T]>>`, `From<Vec<T>>`. -/
def rcFromBox (h : Heap α) (xs : List α) : Except UB (Heap α × Nat × Nat) := do
  let (h, b) := newBuf h xs
  if xs.length = 0 then rcFromParts h ⟨b, 0, 0, none⟩
  else
    let (h, a) := h.rcNew (.alloc b) ⟨0, []⟩
    rcFromParts h ⟨b, 0, xs.length, some a⟩

/-- rc_slice_mut.rs:47-54 `RcSliceMut::from_boxed_slice` with mod.rs:28-39
`split_alloc_from_items`: no allocation object for empty slices or zero-sized items. Also
rc_slice_mut.rs:119-121, 125-127 `From<Box<[T]>>`, `From<Vec<T>>`. -/
def mutFromBox (h : Heap α) (xs : List α) : Heap α × Reg :=
  let (h, b) := newBuf h xs
  if xs.length = 0 ∨ h.sk.zst then (h, ⟨b, 0, xs.length, none⟩)
  else
    let (h, a) := h.rcNew (.alloc b) ⟨0, []⟩
    (h, ⟨b, 0, xs.length, some a⟩)

/-- rc_slice.rs:430-437 `RcSlice::clone`. -/
def rcClone (h : Heap α) (d i : Nat) : Except UB (Heap α) := do
  let h ← h.incS d
  h.incS i

/-- rc_slice.rs:347, 357: the tests for which a half is the slice itself. -/
def sameNode (len : Nat) : Side → Bool
  | .L => len == 0
  | .R => decide (len ≤ 1)

/-- rc_slice.rs:346-364 `RcSlice::clone_left`, `clone_right`. -/
def rcCloneSide (h : Heap α) (d i : Nat) (s : Side) : Except UB (Heap α × Nat × Nat) := do
  let v ← h.getData d
  if sameNode v.len s then
    let h ← rcClone h d i
    pure (h, d, i)
  else
    let (h, c) ← dataCloneChild h d s
    let (h, j) ← imgCloneChild h i s
    pure (h, c, j)

/-- rc_slice.rs:384-403 `RcSlice::get_mut`: may the caller have `&mut [T]`? -/
def getMutOk (h : Heap α) (d i : Nat) : Except UB Bool := do
  let vi ← h.getImg i
  if h.strong d = 0 ∨ h.strong vi.gmg = 0 then .error .dangling
  else pure (h.strong d == 1 && h.strong vi.gmg == 1)

/-- One child in rc_slice.rs:185-192 `forget_items` (147-157 `take_left`, `take_right`, `take_child`): `Rc::try_unwrap(child)`, forget its
items, drop it (its length is 0 and its children are taken, so only its allocation
reference is dropped); if it is shared, just drop the reference. -/
def forgetKid (rec : Heap α → DataV → Except UB (Heap α)) (h : Heap α) : Option Nat → Except UB (Heap α)
  | none => .ok h
  | some c =>
    if h.strong c = 1 then do
      let vc ← h.getData c
      let h ← rec (h.kill c) vc
      h.decSharedOpt vc.alloc
    else h.decShared c

/-- rc_slice.rs:185-192 `RcSliceData::forget_items` on a value already taken out of its
`Rc`. -/
def forgetItems : Nat → Heap α → DataV → Except UB (Heap α)
  | 0, _, _ => .error .diverge
  | fuel + 1, h, v => do
    let h ← forgetKid (forgetItems fuel) h (v.kids .L)
    forgetKid (forgetItems fuel) h (v.kids .R)

/-- rc_slice.rs:405-419 `RcSlice::into_mut` with 175-183 `RcSliceData::into_mut`:
`some` is `Ok`, with the guard still to be dropped; `none` is `Err(this)`. -/
def intoMut (h : Heap α) (d i : Nat) : Except UB (Heap α × Option (Reg × List Task)) := do
  if h.strong i = 0 ∨ h.strong d = 0 then .error .dangling
  else if h.strong i = 1 then
    if h.strong d = 1 then
      let v ← h.getData d
      let h ← forgetItems h.sk.next (h.kill d) v
      pure (h, some (⟨v.buf, v.off, v.len, v.alloc⟩, [.dropS i]))
    else pure (h, none)
  else pure (h, none)

/-- rc_slice.rs:421-423 `RcSlice::downgrade`: the new `WeakSlice`'s guard. -/
def downgrade (h : Heap α) (d i : Nat) : Except UB (Heap α × Nat) := do
  let h ← h.incW d
  let vi ← h.getImg i
  let h ← h.incS vi.gmg
  pure (h, vi.gmg)

/-- rc_slice.rs:474-476 `WeakSlice::new`. -/
def weakNew (h : Heap α) : Heap α × Nat :=
  let (h, f) := newFam h ⟨0, ⟨0, 0⟩, false⟩
  h.rcNew (.gmg ⟨none, noKids, none⟩) ⟨f, []⟩

/-- rc_slice.rs:478-502 `WeakSlice::upgrade`. -/
def upgradeWeak (h : Heap α) (d : Option Nat) (g : Nat) : Except UB (Heap α × Option (Nat × Nat)) := do
  match ← h.upgrade d with
  | none => pure (h, none)
  | some (h, d) =>
    let (h, i) ← ensureImg (g + 1) h g
    pure (h, some (d, i))

/-- rc_slice.rs:505-512 `WeakSlice::clone`. -/
def weakClone (h : Heap α) (d : Option Nat) (g : Nat) : Except UB (Heap α) := do
  let h ← h.cloneW d
  h.incS g

/-- Drop an `Rc`. If it was the last one, the value's destructor and fields follow:
* `RcSliceData`: rc_slice.rs:195-219, children (147-157) first, then the remaining items, then `alloc`;
* `IntoMutGuard`: `_parent`, the two `Weak`s, `get_mut_guard`;
* `GetMutGuard`: `parentage`, the three `Weak`s (dropping a `Weak` runs no code, so these
  are done at once);
* `SliceAlloc`: slice_alloc.rs:25-31, frees the buffer. -/
def dropStrong (h : Heap α) (x : Nat) : Except UB (Heap α × List Task) :=
  if h.strong x = 0 then .error .dangling
  else if h.strong x ≠ 1 then .ok ({ h with strong := upd h.strong x (h.strong x - 1) }, [])
  else
    match h.sk.node x with
    | none => .error .dangling
    | some (.data v) =>
      .ok (h.kill x,
        (v.kids .L).toList.map .dropS ++ (v.kids .R).toList.map .dropS ++
          [.dropReg ⟨v.buf, v.dropRange.1, v.dropRange.2, v.alloc⟩])
    | some (.img v) => do
      let h := h.kill x
      let h ← h.decW (v.kids .L)
      let h ← h.decW (v.kids .R)
      pure (h, v.parent.toList.map .dropS ++ [.dropS v.gmg])
    | some (.gmg v) => do
      let h := h.kill x
      let h ← h.decW (v.kids .L)
      let h ← h.decW (v.kids .R)
      let h ← h.decW v.img
      pure (h, v.parent.toList.map fun p => .dropS p.1)
    | some (.alloc b) =>
      let h := h.kill x
      if h.sk.zst then .ok (h, [])
      else if h.sk.mem b then .ok ({ h with sk := { h.sk with mem := upd h.sk.mem b false } }, [])
      else .error .doubleFree

/-- Execute the first pending task. The order of drops is that of the Rust reference: rc_slice.rs:195-219 and the drop glue of the structures. -/
def taskStep (h : Heap α) : Task → Except UB (Heap α × List Task)
  | .dropS x => dropStrong h x
  | .dropRcSlice d i => do
    let (h, ts) ← dropStrong h d
    pure (h, ts ++ [.dropS i])
  | .userCode => .ok (h, [])
  | .dropReg r =>
    if r.len = 0 then .ok (h, r.alloc.toList.map .dropS)
    else if !h.accessible r.buf then .error .useAfterFree
    else match h.slot r.buf r.off with
      | .live _ => .ok (h.setSlot r.buf r.off .dropped, [.userCode, .dropReg { r with off := r.off + 1, len := r.len - 1 }])
      | _ => .error .deadItem

end Verif.Rc
