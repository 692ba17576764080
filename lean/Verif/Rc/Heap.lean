import Verif.Spec.World
/-!
# The reference counted heap

One arena holds every object that `src/rc` puts behind an `Rc`: `SliceAlloc`,
`RcSliceData`, `IntoMutGuard` and `GetMutGuard`. An object has a strong count, a
weak count and, while its value has not been dropped or moved out, contents.
`usize` arithmetic and addresses are the subject of layer A; here a pointer to
an item is (buffer, position).

Simplification: the counts are unbounded (`Rc` aborts the process on overflow).
-/

namespace Verif.Rc
open Verif.Spec (Side Slot Family)

/-- What undefined behaviour (or an internal error of the model) looks like.
Models no code of /repo: what must not happen anywhere in rc_slice.rs and arc_slice.rs. -/
inductive UB where
  /-- use of an `Rc`/`Weak` whose count is already zero, or of a dropped value -/
  | dangling
  /-- an item of a freed buffer is touched -/
  | useAfterFree
  /-- an item is dropped, moved out or read although it is not there any more -/
  | deadItem
  /-- a buffer is freed twice -/
  | doubleFree
  /-- a destructor would run where the model assumes none does -/
  | unexpectedDrop
  /-- a `Fault` of layer A -/
  | fault
  /-- the recursion of the model did not end (the code would loop) -/
  | diverge
deriving DecidableEq, Repr

/-- rc_slice.rs:23-37 `RcSliceData`. `kids` are the raw strong pointers
`left_child`, `right_child`. -/
structure DataV where
  buf : Nat
  off : Nat
  len : Nat
  alloc : Option Nat
  kids : Side → Option Nat

/-- rc_slice.rs:40-49 `IntoMutGuard`. `kids` are `Weak`. -/
structure ImgV where
  parent : Option Nat
  kids : Side → Option Nat
  gmg : Nat

/-- rc_slice.rs:51-67 `GetMutGuard`, `GetMutGuardParentage`. `kids` and `img` are `Weak`. -/
structure GmgV where
  parent : Option (Nat × Side)
  kids : Side → Option Nat
  img : Option Nat

/-- The value inside an `Rc`. `alloc` is slice_alloc.rs:6-9 `SliceAlloc`, which owns the
memory of a buffer. -/
inductive Node where
  | data (v : DataV)
  | img (v : ImgV)
  | gmg (v : GmgV)
  | alloc (buf : Nat)

/-- Ghost: what kind of object an address was made for. Models no code. -/
inductive Kind where
  | data
  | img
  | gmg
  | alloc
deriving DecidableEq, Repr

/-- Ghost: models no code. -/
def Node.kind : Node → Kind
  | .data _ => .data
  | .img _ => .img
  | .gmg _ => .gmg
  | .alloc _ => .alloc

/-- Ghost: which subslice of which family an object belongs to. A family starts with
every `RcSlice` built from a box or a unique slice. The head of `path` is the last
halving step. Models no code. -/
structure Lab where
  fam : Nat
  path : List Side
deriving DecidableEq, Repr

/-- Ghost: models no code. -/
def Lab.child (l : Lab) (s : Side) : Lab := ⟨l.fam, s :: l.path⟩

/-- The graph part of the heap. The objects made at rc_slice.rs:98, 133, 235, 253, 259, 278, 315, 339, 475. -/
structure Skel where
  /-- `size_of::<T>() == 0` -/
  zst : Bool
  /-- the next fresh address -/
  next : Nat
  nbuf : Nat
  node : Nat → Option Node
  /-- is the memory of this buffer allocated -/
  mem : Nat → Bool
  /-- number of items of a buffer -/
  blen : Nat → Nat
  /-- ghost -/
  nfam : Nat
  /-- ghost -/
  lab : Nat → Lab
  /-- ghost -/
  kind : Nat → Kind
  /-- ghost -/
  fams : Nat → Family

/-- The whole heap. Ghost fields of `Skel` are written but never read by the code.
Counts are those inside of `std::rc::Rc`; `slot` is the memory handed over at rc_slice.rs:93-101. -/
structure Heap (α : Type) where
  sk : Skel
  strong : Nat → Nat
  weak : Nat → Nat
  slot : Nat → Nat → Slot α

/-- Change a map at one key. Models no code. -/
def upd {β : Type} (f : Nat → β) (x : Nat) (v : β) : Nat → β := fun y => if y = x then v else f y

namespace Heap
variable {α : Type}

/-- `Rc::new`: strong count 1, no `Weak`. The label is ghost. Used at rc_slice.rs:98, 133, 235, 253, 259, 278, 315, 339, 475. -/
def rcNew (h : Heap α) (n : Node) (l : Lab) : Heap α × Nat :=
  ({ h with
      sk := { h.sk with
        next := h.sk.next + 1
        node := upd h.sk.node h.sk.next (some n)
        lab := upd h.sk.lab h.sk.next l
        kind := upd h.sk.kind h.sk.next n.kind }
      strong := upd h.strong h.sk.next 1 }, h.sk.next)

/-- Overwrite (a field of) the value inside an `Rc`, through `Cell`/`UnsafeCell`. rc_slice.rs:135, 243, 265, 284, 322. -/
def setNode (h : Heap α) (x : Nat) (n : Node) : Heap α :=
  { h with sk := { h.sk with node := upd h.sk.node x (some n) } }

/-- `Rc::clone`. Used at rc_slice.rs:134, 140, 236, 279, 319, 422, 433-434, 509. -/
def incS (h : Heap α) (x : Nat) : Except UB (Heap α) :=
  if h.strong x = 0 then .error .dangling
  else .ok { h with strong := upd h.strong x (h.strong x + 1) }

/-- `Option<Rc>::clone`. Used at rc_slice.rs:132, rc_slice_mut.rs:78-88. -/
def incSOpt (h : Heap α) : Option Nat → Except UB (Heap α)
  | none => .ok h
  | some x => h.incS x

/-- `Rc::downgrade`. Used at rc_slice.rs:242-243, 265, 284, 322, 422. -/
def incW (h : Heap α) (x : Nat) : Except UB (Heap α) :=
  if h.strong x = 0 then .error .dangling
  else .ok { h with weak := upd h.weak x (h.weak x + 1) }

/-- `Weak::clone` (`none` is `Weak::new()`, which refers to nothing). Used at rc_slice.rs:508. -/
def cloneW (h : Heap α) : Option Nat → Except UB (Heap α)
  | none => .ok h
  | some x => if h.weak x = 0 then .error .dangling
    else .ok { h with weak := upd h.weak x (h.weak x + 1) }

/-- Drop a `Weak`. Happens by assignment at rc_slice.rs:243, 284, 322, and when a `WeakSlice` (rc_slice.rs:80-85) is dropped. -/
def decW (h : Heap α) : Option Nat → Except UB (Heap α)
  | none => .ok h
  | some x => if h.weak x = 0 then .error .dangling
    else .ok { h with weak := upd h.weak x (h.weak x - 1) }

/-- `Weak::upgrade`. Used at rc_slice.rs:232, 276, 302, 498. -/
def upgrade (h : Heap α) : Option Nat → Except UB (Option (Heap α × Nat))
  | none => .ok none
  | some x =>
    if h.weak x = 0 then .error .dangling
    else if h.strong x = 0 then .ok none
    else .ok (some ({ h with strong := upd h.strong x (h.strong x + 1) }, x))

/-- Drop an `Rc` at a place where others are known to remain; the last one would run a
destructor, which is an error of the model here. Used for temporaries, e.g. at rc_slice.rs:301-330. -/
def decShared (h : Heap α) (x : Nat) : Except UB (Heap α) :=
  if h.strong x = 0 then .error .dangling
  else if h.strong x = 1 then .error .unexpectedDrop
  else .ok { h with strong := upd h.strong x (h.strong x - 1) }

/-- The same for an `Option<Rc>`. -/
def decSharedOpt (h : Heap α) : Option Nat → Except UB (Heap α)
  | none => .ok h
  | some x => h.decShared x

/-- The value leaves the `Rc`: strong count 0, contents gone. Used by the last drop and by
`Rc::try_unwrap`. rc_slice.rs:187-189, 413. -/
def kill (h : Heap α) (x : Nat) : Heap α :=
  { h with
    sk := { h.sk with node := upd h.sk.node x none }
    strong := upd h.strong x 0 }

/-- Dereference an `Rc<RcSliceData>`. rc_slice.rs:23-38. -/
def getData (h : Heap α) (x : Nat) : Except UB DataV :=
  match h.sk.node x with
  | some (.data v) => .ok v
  | _ => .error .dangling

/-- Dereference an `Rc<IntoMutGuard>`: rc_slice.rs:40-48. -/
def getImg (h : Heap α) (x : Nat) : Except UB ImgV :=
  match h.sk.node x with
  | some (.img v) => .ok v
  | _ => .error .dangling

/-- Dereference an `Rc<GetMutGuard>`: rc_slice.rs:62-67. -/
def getGmg (h : Heap α) (x : Nat) : Except UB GmgV :=
  match h.sk.node x with
  | some (.gmg v) => .ok v
  | _ => .error .dangling

/-- Set one item. Models `ptr::read`, `ptr::write` and `drop_in_place`, e.g. at rc_slice.rs:217, slice_items.rs:178-182. -/
def setSlot (h : Heap α) (b i : Nat) (s : Slot α) : Heap α :=
  { h with slot := upd h.slot b (upd (h.slot b) i s) }

/-- The memory of an item may be touched: zero-sized items need none. slice_alloc.rs, slice_model/mod.rs:32. -/
def accessible (h : Heap α) (b : Nat) : Bool := h.sk.zst || h.sk.mem b

end Heap

/-- Nothing allocated yet. Before the first call. -/
def Heap.empty {α : Type} (zst : Bool) : Heap α where
  sk := { zst, next := 0, nbuf := 0, node := fun _ => none, mem := fun _ => false, blen := fun _ => 0, nfam := 0,
          lab := fun _ => ⟨0, []⟩, kind := fun _ => .alloc, fams := fun _ => ⟨0, ⟨0, 0⟩, false⟩ }
  strong := fun _ => 0
  weak := fun _ => 0
  slot := fun _ _ => .absent

end Verif.Rc
