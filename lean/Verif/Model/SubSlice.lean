import Verif.Model.SliceItems
/-!
# What an `RcSlice`/`ArcSlice` handle shows, and how it is split

Only the pointer and length part of the shared handles; the reference counts
are the subject of layer B (`Verif.Rc`) and layer C (`Verif.Arc`).
-/

namespace Verif

namespace RawSlice

/-- rc_slice.rs:159-161, arc_slice.rs:194-196 `left_sub`. -/
def leftSub (s : RawSlice) : RawSlice := ⟨s.ptr, s.len >>> 1⟩

/-- rc_slice.rs:163-170, arc_slice.rs:198-205 `right_sub`. -/
def rightSub (C : Ctx) (s : RawSlice) : Except Fault RawSlice :=
  if C.size = 0 then do
    let n ← subU s.len (s.len >>> 1)
    pure ⟨s.ptr, n⟩
  else do
    let p ← C.ptrAdd s.ptr (s.len >>> 1)
    let n ← subU s.len (s.len >>> 1)
    pure ⟨p, n⟩

/-- rc_slice.rs:346-354, arc_slice.rs:110-119: the slice `clone_left` returns. -/
def cloneLeft (s : RawSlice) : RawSlice :=
  if s.len = 0 then s else s.leftSub

/-- rc_slice.rs:356-364, arc_slice.rs:121-130: the slice `clone_right` returns. -/
def cloneRight (C : Ctx) (s : RawSlice) : Except Fault RawSlice :=
  if s.len ≤ 1 then pure s else s.rightSub C

/-- rc_slice.rs:366-371, arc_slice.rs:344-349 `split_off_left`: returns (left, new this). -/
def splitOffLeft (C : Ctx) (s : RawSlice) : Except Fault (RawSlice × RawSlice) := do
  let l := s.cloneLeft
  let r ← s.cloneRight C
  pure (l, r)

/-- rc_slice.rs:373-378, arc_slice.rs:351-356 `split_off_right`: returns (right, new this). -/
def splitOffRight (C : Ctx) (s : RawSlice) : Except Fault (RawSlice × RawSlice) := do
  let l := s.cloneLeft
  let r ← s.cloneRight C
  pure (r, l)

end RawSlice
end Verif
