import Verif.Arc.Seq
/-!
# What `ArcSlice` leaks

An `ArcSliceData` refers to its guard through an `AtomicPtr<Weak<DataGuard>>`. The boxes this
pointer is given (arc_slice.rs:96, 301) are never freed (`Arena.nbox` counts them). Each of them
keeps a `Weak<DataGuard>`, so the block of a guard is not returned either.

Simplification: an `ArcSliceData` that loses the race of arc_slice.rs:141-152 has had a box as well, which is leaked when it is dropped. The model
makes none for it (`pcStep`, `csLose`). So the numbers here are those of the boxes that other threads could see; with lost races
of `clone_left` and `clone_right`, which need two threads, there is one more for each.
-/

namespace Verif.Arc
open Verif.Spec (Side)
variable {α : Type}

/-- How many `ArcSliceData` have been put to use so far: for new slices and `into_immut` (arc_slice.rs:91-108), and for
halves (arc_slice.rs:135-152). -/
def Conf.recordsMade (c : Conf α) : Nat := ((List.range c.a.b.sk.next).filter fun x => decide (c.a.b.sk.kind x = .data)).length

/-- How many `DataGuard`s have been made so far. arc_slice.rs:296-302. -/
def Conf.guardsMade (c : Conf α) : Nat := c.a.ng

/-- How many boxes have been made for the `guard` field of `ArcSliceData` so far, none of which is ever freed, leaving out those of records that
lost a race and were never in use. arc_slice.rs:96, 301. -/
def Conf.boxesMade (c : Conf α) : Nat := c.a.nbox

/-- The calls that make `ArcSlice`s other than copies of the `ArcSlice` they are given: `from_boxed_slice`, `into_immut`,
`clone_left` and `clone_right` (also as part of `split_off_left` and `split_off_right`, arc_slice.rs:344-356), `upgrade`. -/
def Op.guarding : Op α → Bool
  | .new _ | .intoImmut _ | .cloneSide _ _ | .upgrade _ => true
  | _ => false

/-- A program that makes a slice of two items and then, `n` times, takes its left half and drops that. The first half is at
position 1 of the table, the next at position 2, and so on. Models no code but a user. -/
def halvesOf (x y : α) (n : Nat) : List (Spec.Op α) :=
  .rcNew [x, y] :: (List.range n).flatMap fun i => [.cloneSide .L 0, .drop (i + 1)]

end Verif.Arc
