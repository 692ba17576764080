import Verif.Arc.Spec
import Verif.Rc.Unwind
/-!
# `ArcSlice` and destructors that panic

The destructor of an item may panic. The stack is then unwound, up to a `catch_unwind` outside of the call whose
drops were being executed (or up to the beginning of the thread). On the way values are dropped as usual, except that code after the point of
the panic is not run.

Item destructors run in two places: in drops of `ArcSlice`, `ArcSliceMut`, `ArcSliceMutIter` and `ArcSliceMutParts`, and
in `DataGuard::guard` (arc_slice.rs:294-295) when the `Arc` of the parent that was obtained by `upgrade` is the last
one left by the time it is dropped. The latter is part of `clone_left`, `clone_right` and `upgrade`. (`C54_where`: it happens in
`upgrade` only.)

Simplifications:
* If a destructor panics while the stack is unwound, the process is aborted. Here unwinding then starts anew, so that all
  properties are shown of more than what can happen.
* Calls made by a destructor are calls like all others (see `Arc/Model.lean`); they need not have returned.
* arc_slice.rs:295: if dropping `parent_data` panics, the guard that the closure was about to return is dropped. (Old
  compilers forget it.)
-/

namespace Verif.Arc
open Verif.Rc (UB Heap Reg Task)
variable {α : Type}

/-- Unwinding through the destructors that have the drops `ts` pending.

* Fields and children are dropped even if dropping others panics.
* arc_slice.rs:230-254: if dropping a child (end of line 247) panics, line 252 is not reached, so the items of the node
  itself are not dropped; the field `alloc` is. -/
def unwind : Heap α → List ATask → Heap α × List ATask
  | h, [] => (h, [])
  | h, .base (.dropReg r) :: ts => ((unwind (h.lose r) ts).1, .base (.dropReg { r with len := 0 }) :: (unwind (h.lose r) ts).2)
  | h, t :: ts => ((unwind h ts).1, t :: (unwind h ts).2)

/-- The drops that unwinding makes of the local variables of a call, if items can be dropped at this point.

arc_slice.rs:286-320: `guard` has a guard of the parent, the callers of it each have an `Arc` of a parent, and `from_data`
(arc_slice.rs:321-324) owns `data`. -/
def cleanup : Pc α → Option (List ATask)
  | .done _ => some []
  | .gCas _ _ og fs y => some (og.toList.map .guard ++ (fs.map fun f => .base (.dropS f.p)) ++ [.base (.dropS y)])
  | _ => none

namespace Conf

/-- The destructor that is running in call number `i` panics. The destructors of the remaining items of the same slice are still run
(this is what `drop_in_place` does for a slice). Destructors run at arc_slice.rs:252 and in slice_items.rs. -/
def panic (c : Conf α) (i : Nat) : Option (Conf α) :=
  match c.calls[i]? with
  | some cl =>
    match cl.tasks, cleanup cl.pc with
    | .base .userCode :: .base (.dropReg r) :: ts, some us =>
      some { c with
        a := c.a.withB (unwind c.a.b ts).1
        calls := c.calls.set i { cl with pc := .done .panic, tasks := .base (.dropReg r) :: ((unwind c.a.b ts).2 ++ us) } }
    | _, _ => none
  | none => none

/-- What may happen next if destructors may panic. See `Step` and `panic`. -/
inductive PStep : Conf α → Except UB (Conf α) → Prop
  | step (c : Conf α) (r : Except UB (Conf α)) (h : Step c r) : PStep c r
  | panic (c c' : Conf α) (i : Nat) (h : c.panic i = some c') : PStep c (.ok c')

/-- States that can come about if destructors may panic. `P` restricts the calls that are started.
Models all programs that use arc_slice.rs and arc_slice_mut.rs, on any number of threads. -/
inductive PReach (P : Rules α) (zst : Bool) : Conf α → Prop
  | init : PReach P zst (init zst)
  | run {c c' : Conf α} (h : PReach P zst c) (i : Nat) (e : c.step i = .ok c') : PReach P zst c'
  | start {c c' : Conf α} (h : PReach P zst c) (op : Op α) (hp : P c op) (e : c.start op = some c') : PReach P zst c'
  | write {c c' : Conf α} (h : PReach P zst c) (k : Nat) (en : Ent) (j : Nat) (x : α) (hk : c.get k = some en)
      (hw : writable en = true) (e : c.write en j x = .ok c') : PReach P zst c'
  | panic {c c' : Conf α} (h : PReach P zst c) (i : Nat) (e : c.panic i = some c') : PReach P zst c'

end Conf

/-- In runs following these rules, `upgrade` does not overlap `into_mut` on something larger, even if destructors panic. -/
def PTame (P : Rules α) : Prop := ∀ zst c op, Conf.PReach P zst c → P c op → c.careful op = true

/-- In runs following these rules, `upgrade` overlaps neither `into_mut` on something larger, nor `get_mut`
and the use of its result on the same or something larger, even if destructors panic. -/
def PStrict (P : Rules α) : Prop := ∀ zst c op, Conf.PReach P zst c → P c op → c.strict op = true

/-! ## Running schedules -/

inductive PAct (α : Type) where
  | act (a : Act α)
  /-- the destructor running in call `i` panics -/
  | panic (i : Nat)

/-- Execute a schedule in which all calls follow a discipline. -/
def pexec (p : Conf α → Op α → Bool) (c : Conf α) : List (PAct α) → Option (Except UB (Conf α))
  | [] => some (.ok c)
  | .act a :: as => match execIf p c [a] with
    | some (.ok c') => pexec p c' as
    | o => o
  | .panic i :: as => match c.panic i with
    | some c' => pexec p c' as
    | none => none

end Verif.Arc
