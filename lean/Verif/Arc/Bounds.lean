import Verif.Arc.Unwind
/-!
# How much memory and stack is needed

What is counted, in the states of the program.
-/

namespace Verif.Arc
open Verif.Rc (UB Heap Reg Task Node)
variable {α : Type}

/-- All the `ArcSliceData` (arc_slice.rs:27-46) put to use so far for a slice that was made by `ArcSlice::new` or `into_immut` and its subslices, whether
dropped by now or not (`Weak`s, like those in `WeakSlice`s, hold on to the memory). The model allocates them at arc_slice.rs:91-99 and 139-142.
Slices made are numbered; `f` is the number. (A child that loses the race of line 142 is dropped at once, and not counted.) -/
def Conf.blocks (c : Conf α) (f : Nat) : List Nat :=
  (List.range c.a.b.sk.next).filter fun x => decide (c.a.b.sk.kind x = .data) && decide ((c.a.b.sk.lab x).fam = f)

/-- The `DataGuard`s (arc_slice.rs:50-58) of the same slice and its subslices that have not been dropped. -/
def Conf.guards (c : Conf α) (f : Nat) : List Nat :=
  (List.range c.a.ng).filter fun g => (c.a.guard g).isSome && decide ((c.a.b.sk.lab (c.a.gOf g)).fam = f)

/-- How many subslices a slice of `n` items has, the slice itself included, if halves that are the slice itself (arc_slice.rs:110-132) are not counted
again, while empty left halves are: 1 for the empty slice; 2 for a slice of one item; otherwise it has two halves of one item at least. -/
def most (n : Nat) : Nat := if n = 0 then 1 else 3 * n - 1

/-- The invocations of `DataGuard::guard` (arc_slice.rs:286-320) that wait for the invocation they made themselves in line 295. -/
def Pc.callers : Pc α → Nat
  | .gLoad _ fs _ | .gTry _ _ _ fs _ | .gPar _ _ fs _ | .gCas _ _ _ fs _ | .gRet _ fs _ => fs.length
  | _ => 0

def Fg.isVal : Fg → Bool
  | .val _ => true
  | .kid _ => false

/-- The invocations of `forget_items` (arc_slice.rs:220-227) that wait for the one they made themselves, or for the drop of the child they
unwrapped. -/
def Pc.unwrapped : Pc α → Nat
  | .imFg todo _ _ _ => todo.countP Fg.isVal
  | _ => 0

def ATask.isReg : ATask → Bool
  | .base (.dropReg _) => true
  | _ => false

/-- The destructors of `ArcSliceData` (arc_slice.rs:230-254) or of `SliceItems` (slice_items.rs) that have begun and are not finished.
(There is one pending drop of a range of items in each.) -/
def Call.destructors (cl : Call α) : Nat := cl.tasks.countP ATask.isReg

/-- The guard `g` has the `n`-th ancestor `g'`: arc_slice.rs:50-53, the field `_parent`. The drop of a guard (drop glue) drops its parent, and so on. -/
inductive Above (a : Arena α) : Nat → Nat → Nat → Prop
  | self (g : Nat) : Above a g 0 g
  | up {g p n g' : Nat} {v : GuardV} (h : a.guard g = some v) (hp : v.parent = some p) (hn : Above a p n g') : Above a g (n + 1) g'

end Verif.Arc
