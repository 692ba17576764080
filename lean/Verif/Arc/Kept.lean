import Verif.Arc.Counts
/-!
# What handles of the Arc version keep in memory

The specification for C78.
-/

namespace Verif.Arc
variable {α : Type}

/-- The `DataGuard`s (arc_slice.rs:50-58) that have not been dropped. -/
def Conf.liveGuards (c : Conf α) : List Nat := (List.range c.a.ng).filter fun g => (c.a.guard g).isSome

/-- The blocks of memory made by `Arc::new` for an `ArcSliceData` or a `SliceAlloc` (arc_slice.rs:27-46, slice_alloc.rs:10-13) that are still there although
the value in them has been dropped. (A block is returned when there are neither `Arc`s nor `Weak`s of it.) -/
def WConf.husks (w : WConf α) : List Nat :=
  (List.range w.c.a.b.sk.next).filter fun x => (w.c.a.b.sk.node x).isNone && w.there (.node x)

/-- The blocks of memory made by `Arc::new` for an `ArcSliceData` or a `SliceAlloc` that are still there. -/
def WConf.keptBlocks (w : WConf α) : List Nat := (List.range w.c.a.b.sk.next).filter fun x => w.there (.node x)

end Verif.Arc
