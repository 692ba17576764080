import Verif.Rc.Machine
/-!
# Destructors that panic

The destructor of an item may panic. The stack is then unwound up to the next `catch_unwind`. On the way
values are dropped as usual, except that code after the point of the panic is not run.
-/

namespace Verif.Rc
open Verif.Spec (Slot Op)
variable {α : Type}

/-- Items that are never going to be dropped or used again, as after `mem::forget`.
What becomes of the items of rc_slice.rs:195-219 if line 217 is not reached. -/
def Heap.lose (h : Heap α) (r : Reg) : Heap α :=
  { h with slot := fun b i => if b = r.buf ∧ r.off ≤ i ∧ i < r.off + r.len then .moved else h.slot b i }

/-- Unwinding through the frames that have the drops `ts` pending, up to a `catch_unwind` in user code:
what is still pending then. Cleanup takes place in the usual order.

* A destructor that made the call that panicked is left in the middle. `drop_in_place` on `[T]`
  (rc_slice.rs:217, slice_items.rs:95, 210, 360) goes on with the remaining items if the destructor of one panics,
  and the fields of the struct whose `drop` it was called from are dropped after that.
* rc_slice.rs:195-219: if dropping the children (end of line 213) panics, the other child is dropped, but
  line 217 is not reached; the field `alloc` is dropped.
* Fields are dropped even if dropping others panics.

If a destructor panics while the stack is unwound, the process is aborted; this is not modelled: unwinding then starts anew,
so that all properties are shown of more than what can happen. An `Rc` whose contents panicked when dropped may not return
the memory of its counters (depending on the version of `std`); the model does not return that of any. -/
inductive Unwinds : Heap α → List Task → Heap α → List Task → Prop
  /-- user code catches the panic -/
  | caught (h : Heap α) (ts : List Task) (hu : ts = [] ∨ ts.head? = some .userCode) : Unwinds h ts h ts
  /-- the panic leaves the destructor of an item -/
  | destructor (h h' : Heap α) (r : Reg) (ts ts' : List Task) (u : Unwinds h ts h' ts') :
    Unwinds h (.userCode :: .dropReg r :: ts) h' (.dropReg r :: ts')
  /-- the panic leaves `drop` of an `RcSliceData` before its own items are dropped -/
  | node (h h' : Heap α) (r : Reg) (ts ts' : List Task) (u : Unwinds (h.lose r) ts h' ts') :
    Unwinds h (.dropReg r :: ts) h' (.dropReg { r with len := 0 } :: ts')
  /-- another field -/
  | field (h h' : Heap α) (x : Nat) (ts ts' : List Task) (u : Unwinds h ts h' ts') :
    Unwinds h (.dropS x :: ts) h' (.dropS x :: ts')
  /-- another slice in a `VecDeque` -/
  | slice (h h' : Heap α) (d i : Nat) (ts ts' : List Task) (u : Unwinds h ts h' ts') :
    Unwinds h (.dropRcSlice d i :: ts) h' (.dropRcSlice d i :: ts')

/-- What may happen if destructors may panic. Destructors run at rc_slice.rs:217 and in slice_items.rs. -/
inductive Config.PStep (umax : Nat) : Config α → Except UB (Config α) → Prop
  | step (c : Config α) (r : Except UB (Config α)) (s : Config.Step umax c r) : Config.PStep umax c r
  /-- the destructor that is running panics -/
  | panic (st : State α) (h' : Heap α) (r : Reg) (ts ts' : List Task) (u : Unwinds st.h ts h' ts') :
    Config.PStep umax ⟨st, .userCode :: .dropReg r :: ts⟩ (.ok ⟨{ st with h := h' }, .dropReg r :: ts'⟩)

/-- Everything that can happen, with arbitrary calls from inside item destructors, which may also panic.
Models all programs that use rc_slice.rs and rc_slice_mut.rs. -/
inductive Config.PReach (umax : Nat) (zst : Bool) : Config α → Prop
  | init : Config.PReach umax zst (Config.init zst)
  | step (c c' : Config α) : Config.PReach umax zst c → Config.PStep umax c (.ok c') → Config.PReach umax zst c'

end Verif.Rc
