import Verif.Arc.Weak
/-!
# How large reference counts get

The specification for C76: what is counted.
-/

namespace Verif.Arc
variable {α : Type}

/-- The number of `ArcSlice`s there are, those that calls work with by value not counted. arc_slice.rs:60-67. -/
def Conf.strongs (c : Conf α) : Nat := c.hs.countP fun o => match o with | some ⟨.strong _ _, _⟩ => true | _ => false

/-- The number of `WeakSlice`s there are. arc_slice.rs:69-73. -/
def Conf.weaks (c : Conf α) : Nat := c.hs.countP fun o => match o with | some ⟨.weak _ _, _⟩ => true | _ => false

/-- The number of `ArcSliceMut`s, `ArcSliceMutIter`s and `ArcSliceMutParts` there are. arc_slice_mut.rs:21-41. -/
def Conf.uniqs (c : Conf α) : Nat := c.hs.countP fun o => match o with | some ⟨.uniq _, _⟩ => true | _ => false

/-- The number of calls that have been started and are not done. -/
def Conf.active (c : Conf α) : Nat := c.calls.countP fun cl => !cl.pc.isDone

/-- The children that `forget_items` (arc_slice.rs:220-227) has still to visit or to drop. -/
def Pc.todo : Pc α → Nat
  | .imFg todo _ _ _ => todo.length
  | _ => 0

/-- The drops that have begun and are not finished, or are still to do in calls that have begun. -/
def Conf.pending (c : Conf α) : Nat := (c.calls.map fun cl => cl.tasks.length + cl.pc.todo).sum

/-- The `ArcSliceData` (arc_slice.rs:27-46) that have not been dropped. -/
def Conf.slices (c : Conf α) : List Nat :=
  (List.range c.a.b.sk.next).filter fun x => (c.a.b.sk.node x).isSome && decide (c.a.b.sk.kind x = .data)

end Verif.Arc
