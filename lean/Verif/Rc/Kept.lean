import Verif.Rc.Unwind
/-!
# What handles keep in memory

The specification for C74.
-/

namespace Verif.Rc
variable {α : Type}

/-- The number of `RcSlice`s there are. rc_slice.rs:71-76. -/
def State.strongs (s : State α) : Nat := s.hs.countP fun o => match o with | some (.strong _ _) => true | _ => false

/-- The number of `WeakSlice`s there are. rc_slice.rs:80-85. -/
def State.weaks (s : State α) : Nat := s.hs.countP fun o => match o with | some (.weak _ _) => true | _ => false

/-- The values of a kind (`RcSliceData`, `IntoMutGuard`, `GetMutGuard`, `SliceAlloc`; rc_slice.rs:23-67, slice_alloc.rs) that have not been dropped. -/
def State.alive (s : State α) (kd : Kind) : List Nat :=
  (List.range s.h.sk.next).filter fun x => decide (0 < s.h.strong x) && decide (s.h.sk.kind x = kd)

/-- Those for which there is memory: what `Rc::new` allocates is returned when there are neither `Rc`s nor `Weak`s. -/
def State.kept (s : State α) (kd : Kind) : List Nat :=
  (List.range s.h.sk.next).filter fun x => decide (0 < s.h.strong x ∨ 0 < s.h.weak x) && decide (s.h.sk.kind x = kd)

end Verif.Rc
